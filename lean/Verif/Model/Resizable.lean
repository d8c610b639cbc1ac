import Verif.Base.DMat

/-!
# Model of `ResizableMatrix` with its buffer (include/alps/fastupdate/resizable_matrix.hpp)

The other models use the logical matrix (`DMat`); this one keeps the allocated buffer `values_` as well.  Sizes are
C++ `int`s (-1 before the first allocation), overflow is not modelled.  `junk` is uninitialised memory.
-/

set_option linter.all false

namespace CTInt

variable {K : Type} [Field K]

/-- The members, resizable_matrix.hpp 382-383: `size1_`, `size2_` and the Eigen matrix `values_`
    (its size `memR`, `memC` and its elements). -/
structure RMat (K : Type) where
  size1 : ℤ
  size2 : ℤ
  memR : ℕ
  memC : ℕ
  buf : ℕ → ℕ → K

namespace RMat

/-- `is_allocated`, 54-56. -/
def Allocated (r : RMat K) : Prop := 0 ≤ r.size1 ∧ 0 ≤ r.size2

instance (r : RMat K) : Decidable r.Allocated := by unfold Allocated; infer_instance

/-- `ResizableMatrix()`, 42. -/
def empty (junk : ℕ → ℕ → K) : RMat K := ⟨-1, -1, 0, 0, junk⟩

/-- `ResizableMatrix(size1, size2)`, 26-32. -/
def create (junk : ℕ → ℕ → K) (n m : ℤ) : Res (RMat K) := do
  Res.assert (0 ≤ n ∧ 0 ≤ m)
  pure ⟨n, m, n.toNat, m.toNat, junk⟩

/-- `ResizableMatrix(size1, size2, initial_value)`, 33-40. -/
def createFill (n m : ℤ) (x : K) : Res (RMat K) := do
  Res.assert (0 ≤ n ∧ 0 ≤ m)
  pure ⟨n, m, n.toNat, m.toNat, fun _ _ => x⟩

/-- The copy constructor, 44-53: the whole buffer is copied; of an unallocated matrix nothing is. -/
def copy (junk : ℕ → ℕ → K) (r : RMat K) : RMat K := if r.Allocated then r else ⟨-1, -1, 0, 0, junk⟩

/-- An access `values_(i, j)` of Eigen. -/
def inBuffer (r : RMat K) (i j : ℤ) : Prop := 0 ≤ i ∧ i < r.memR ∧ 0 ≤ j ∧ j < r.memC

instance (r : RMat K) (i j : ℤ) : Decidable (r.inBuffer i j) := by unfold inBuffer; infer_instance

/-- `operator()(i, j)`, 58-70: the asserts of the class, then the access to the buffer. -/
def read (r : RMat K) (i j : ℤ) : Res K := do
  Res.assert r.Allocated
  Res.assert (i ≤ r.size1)
  Res.assert (j ≤ r.size2)
  Res.assert (r.inBuffer i j)
  pure (r.buf i.toNat j.toNat)

/-- `operator()(i, j) = x`, 58-63. -/
def write (r : RMat K) (i j : ℤ) (x : K) : Res (RMat K) := do
  Res.assert r.Allocated
  Res.assert (i ≤ r.size1)
  Res.assert (j ≤ r.size2)
  Res.assert (r.inBuffer i j)
  pure { r with buf := fun p q => if p = i.toNat ∧ q = j.toNat then x else r.buf p q }

/-- The new buffer size `1.2 * n + 1`, converted to an integer. -/
def grown (n : ℤ) : ℕ := 6 * n.toNat / 5 + 1

/-- `conservative_resize`, 114-125; `conservativeResize` of Eigen keeps the elements inside both buffers. -/
def conservativeResize (junk : ℕ → ℕ → K) (r : RMat K) (n m : ℤ) : Res (RMat K) :=
  if ¬ r.Allocated then do
    Res.assert (0 ≤ n ∧ 0 ≤ m)
    pure ⟨n, m, n.toNat, m.toNat, junk⟩
  else if n > r.memR ∨ m > r.memC then do
    Res.assert (0 ≤ n ∧ 0 ≤ m)
    let R := grown n
    let C := grown m
    pure ⟨n, m, R, C, fun i j => if i < min r.memR R ∧ j < min r.memC C then r.buf i j else junk i j⟩
  else pure { r with size1 := n, size2 := m }

/-- `destructive_resize`, 128-138. -/
def destructiveResize (junk : ℕ → ℕ → K) (r : RMat K) (n m : ℤ) : Res (RMat K) :=
  if ¬ r.Allocated then do
    Res.assert (0 ≤ n ∧ 0 ≤ m)
    pure ⟨n, m, n.toNat, m.toNat, junk⟩
  else if n > r.memR ∨ m > r.memC then do
    Res.assert (0 ≤ n ∧ 0 ≤ m)
    pure ⟨n, m, grown n, grown m, junk⟩
  else pure { r with size1 := n, size2 := m }

/-- `remove_row_col_last`, 141-147. -/
def removeRowColLast (r : RMat K) : Res (RMat K) := do
  Res.assert r.Allocated
  Res.assert (0 < r.size1)
  Res.assert (0 < r.size2)
  pure { r with size1 := r.size1 - 1, size2 := r.size2 - 1 }

/-- `remove_row_last`, 150-154. -/
def removeRowLast (r : RMat K) : Res (RMat K) := do
  Res.assert r.Allocated
  Res.assert (0 < r.size1)
  pure { r with size1 := r.size1 - 1 }

/-- `remove_col_last`, 157-161. -/
def removeColLast (r : RMat K) : Res (RMat K) := do
  Res.assert r.Allocated
  Res.assert (0 < r.size2)
  pure { r with size2 := r.size2 - 1 }

/-- `swap_row`, 164-169: whole rows of the buffer (Eigen checks the row numbers against the buffer). -/
def swapRow (r : RMat K) (a b : ℤ) : Res (RMat K) := do
  Res.assert r.Allocated
  Res.assert (a < r.size1)
  Res.assert (b < r.size1)
  Res.assert (0 ≤ a ∧ a < r.memR ∧ 0 ≤ b ∧ b < r.memR)
  pure { r with buf := fun i j => r.buf (Equiv.swap a.toNat b.toNat i) j }

/-- `swap_col`, 172-177. -/
def swapCol (r : RMat K) (a b : ℤ) : Res (RMat K) := do
  Res.assert r.Allocated
  Res.assert (a < r.size2)
  Res.assert (b < r.size2)
  Res.assert (0 ≤ a ∧ a < r.memC ∧ 0 ≤ b ∧ b < r.memC)
  pure { r with buf := fun i j => r.buf i (Equiv.swap a.toNat b.toNat j) }

/-- `swap_row_col`, 180-183. -/
def swapRowCol (r : RMat K) (a b : ℤ) : Res (RMat K) := do
  let r ← r.swapCol a b
  r.swapRow a b

/-- `block()` must lie inside the buffer (Eigen). -/
def checkBlock (r : RMat K) : Res Unit := do
  Res.assert r.Allocated
  Res.assert (r.size1 ≤ r.memR ∧ r.size2 ≤ r.memC)

/-- `set_to_identity`, 194-200. -/
def setToIdentity (r : RMat K) : Res (RMat K) := do
  Res.assert r.Allocated
  Res.assert (r.size1 = r.size2)
  if 0 < r.size1 then do
    r.checkBlock
    pure { r with buf := fun i j => if (i : ℤ) < r.size1 ∧ (j : ℤ) < r.size2 then (if i = j then 1 else 0) else r.buf i j }
  else pure r

/-- `clear`, 233-237. -/
def clear (r : RMat K) : Res (RMat K) :=
  if r.Allocated then do
    r.checkBlock
    pure { r with buf := fun i j => if (i : ℤ) < r.size1 ∧ (j : ℤ) < r.size2 then 0 else r.buf i j }
  else pure r

/-- The logical matrix. -/
def logical (r : RMat K) : DMat K := ⟨r.size1.toNat, r.size2.toNat, r.buf⟩

/-- `determinant`, 203-215; the general case is Eigen's. -/
def determinant (r : RMat K) : Res K := do
  Res.assert r.Allocated
  Res.assert (r.size1 = r.size2)
  if r.size1 = 0 then pure 1
  else if r.size1 = 1 then r.read 0 0
  else if r.size1 = 2 then do
    let a ← r.read 0 0
    let d ← r.read 1 1
    let b ← r.read 0 1
    let c ← r.read 1 0
    pure (a * d - b * c)
  else do
    r.checkBlock
    pure r.logical.det

/-- `operator=` from an Eigen matrix, 260-265. -/
def assign (B : DMat K) : RMat K := ⟨B.rows, B.cols, B.rows, B.cols, B.val⟩

/-- `invert`, 294-301: the buffer is replaced by the inverse of the logical matrix (Eigen, exact). -/
noncomputable def invert (r : RMat K) : Res (RMat K) := do
  Res.assert r.Allocated
  Res.assert (r.size1 = r.size2)
  if r.size1 * r.size2 > 0 then do
    r.checkBlock
    let X := r.logical.inv
    pure { r with memR := X.rows, memC := X.cols, buf := X.val }
  else pure r

/-- `operator+`, 239-247 (`operator-`, 249-257, is the same with the other sign). -/
def plus (sgn : K) (a b : RMat K) : Res (RMat K) := do
  Res.assert a.Allocated
  Res.assert (a.size1 = b.size1)
  Res.assert (a.size2 = b.size2)
  a.checkBlock
  b.checkBlock
  pure { a with buf := fun i j => if (i : ℤ) < a.size1 ∧ (j : ℤ) < a.size2 then a.buf i j + sgn * b.buf i j else a.buf i j }

/-- `gemm(a, b, c)`, 398-402, for `c` another object than `a` and `b`. -/
def gemm (junk : ℕ → ℕ → K) (a b c : RMat K) : Res (RMat K) := do
  let s1 := if a.Allocated then a.size1 else 0
  let s2 := if b.Allocated then b.size2 else 0
  let c ← destructiveResize junk c s1 s2
  c.checkBlock
  a.checkBlock
  b.checkBlock
  Res.assert (a.size2 = b.size1)
  let X := a.logical.mul b.logical
  pure { c with buf := fun i j => if (i : ℤ) < c.size1 ∧ (j : ℤ) < c.size2 then X.val i j else c.buf i j }

/-- The buffer after `copy_block`. -/
def copied (src : RMat K) (r0 c0 : ℤ) (dst : RMat K) (r1 c1 h w : ℤ) (i j : ℕ) : K :=
  if r1 ≤ (i : ℤ) ∧ (i : ℤ) < r1 + h ∧ c1 ≤ (j : ℤ) ∧ (j : ℤ) < c1 + w then
    src.buf (i + r0 - r1).toNat (j + c0 - c1).toNat
  else dst.buf i j

/-- `block(start_row, start_col, rows, cols) = src.block(...)` of another matrix: `copy_block`, 453-460, with the
    asserts of `block`, 309-326. -/
def copyBlock (src : RMat K) (r0 c0 : ℤ) (dst : RMat K) (r1 c1 h w : ℤ) : Res (RMat K) := do
  Res.assert dst.Allocated
  Res.assert (r1 + h ≤ dst.size1 ∧ c1 + w ≤ dst.size2)
  Res.assert src.Allocated
  Res.assert (r0 + h ≤ src.size1 ∧ c0 + w ≤ src.size2)
  Res.assert (0 ≤ r0 ∧ 0 ≤ c0 ∧ 0 ≤ r1 ∧ 0 ≤ c1 ∧ 0 ≤ h ∧ 0 ≤ w)
  Res.assert (r0 + h ≤ src.memR ∧ c0 + w ≤ src.memC ∧ r1 + h ≤ dst.memR ∧ c1 + w ≤ dst.memC)
  pure { dst with buf := fun i j => copied src r0 c0 dst r1 c1 h w i j }

end RMat

/-- The calls on one matrix. -/
inductive RCall (K : Type) where
  | conservative (n m : ℕ)
  | destructive (n m : ℕ)
  | removeRowCol
  | removeRow
  | removeCol
  | swapRow (a b : ℤ)
  | swapCol (a b : ℤ)
  | swapRowCol (a b : ℤ)
  | write (i j : ℤ) (x : K)
  | identity
  | clear
  | invert
  | assign (B : DMat K)

/-- One call. -/
noncomputable def RMat.call (junk : ℕ → ℕ → K) (r : RMat K) : RCall K → Res (RMat K)
  | .conservative n m => r.conservativeResize junk n m
  | .destructive n m => r.destructiveResize junk n m
  | .removeRowCol => r.removeRowColLast
  | .removeRow => r.removeRowLast
  | .removeCol => r.removeColLast
  | .swapRow a b => r.swapRow a b
  | .swapCol a b => r.swapCol a b
  | .swapRowCol a b => r.swapRowCol a b
  | .write i j x => r.write i j x
  | .identity => r.setToIdentity
  | .clear => r.clear
  | .invert => r.invert
  | .assign B => pure (RMat.assign B)

/-- Several calls; `junk k` is the uninitialised memory handed out by call `k`. -/
noncomputable def RMat.calls (junk : ℕ → ℕ → ℕ → K) (r : RMat K) (l : List (RCall K)) : Res (RMat K) :=
  Res.foldl (fun (x : RMat K) (c : RCall K × ℕ) => x.call (junk c.2) c.1) r l.zipIdx

end CTInt
