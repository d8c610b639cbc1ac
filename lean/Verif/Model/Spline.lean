import Verif.Base.Res
import Mathlib.Data.Real.Basic

/-!
# Cubic splines: src/spline.h

`double` is modelled by ℝ.  A `std::vector<double>` that is only read and written at loop indices below its
size is a function on ℕ together with that size.
-/

set_option linter.all false

namespace CTInt

/-- `band_matrix`, spline.h 44-75: `up k i` is `m_upper[k][i]`, `lo k i` is `m_lower[k][i]`. -/
structure Band where
  dim : ℕ
  nu : ℕ
  nl : ℕ
  up : ℕ → ℕ → ℝ
  lo : ℕ → ℕ → ℝ

namespace Band

/-- `band_matrix(dim, n_u, n_l)` on a new object, spline.h 128-145: all bands zero. -/
def create (dim nu nl : ℕ) : Res Band := do
  Res.assert (0 < dim)
  pure ⟨dim, nu, nl, fun _ _ => 0, fun _ _ => 0⟩

/-- `operator()(i, j)` for reading, spline.h 167-175. -/
def entry (A : Band) (i j : ℕ) : Res ℝ := do
  Res.assert (i < A.dim ∧ j < A.dim)
  Res.assert (i ≤ j + A.nl ∧ j ≤ i + A.nu)
  pure (if i ≤ j then A.up (j - i) i else A.lo (i - j) i)

/-- `operator()(i, j) = v`, spline.h 158-166. -/
def write (A : Band) (i j : ℕ) (v : ℝ) : Res Band := do
  Res.assert (i < A.dim ∧ j < A.dim)
  Res.assert (i ≤ j + A.nl ∧ j ≤ i + A.nu)
  pure (if i ≤ j then { A with up := fun k a => if k = j - i ∧ a = i then v else A.up k a }
    else { A with lo := fun k a => if k = i - j ∧ a = i then v else A.lo k a })

/-- `saved_diag(i)` for reading, spline.h 177-181. -/
def saved (A : Band) (i : ℕ) : Res ℝ := do
  Res.assert (i < A.dim)
  pure (A.lo 0 i)

/-- `saved_diag(i) = v`, spline.h 182-186. -/
def writeSaved (A : Band) (i : ℕ) (v : ℝ) : Res Band := do
  Res.assert (i < A.dim)
  pure { A with lo := fun k a => if k = 0 ∧ a = i then v else A.lo k a }

open Classical in
/-- One row of the preconditioning loop of `lu_decompose`, spline.h 197-206. -/
noncomputable def scaleRow (A : Band) (i : ℕ) : Res Band := do
  let d ← A.entry i i
  Res.assert (d ≠ 0)
  let A ← A.writeSaved i (1 / d)
  let jMin := i - A.nl
  let jMax := min (A.dim - 1) (i + A.nu)
  let A ← Res.foldl (fun A j => do
    let v ← A.entry i j
    let s ← A.saved i
    A.write i j (v * s)) A (List.range' jMin (jMax + 1 - jMin))
  A.write i i 1

open Classical in
/-- Elimination of the entry `(i, k)`, spline.h 212-219. -/
noncomputable def eliminate (k : ℕ) (A : Band) (i : ℕ) : Res Band := do
  let d ← A.entry k k
  Res.assert (d ≠ 0)
  let l ← A.entry i k
  let x := - l / d
  let A ← A.write i k (- x)
  let jMax := min (A.dim - 1) (k + A.nu)
  Res.foldl (fun A j => do
    let v ← A.entry i j
    let w ← A.entry k j
    A.write i j (v + x * w)) A (List.range' (k + 1) (jMax - k))

/-- One step of the outer elimination loop, spline.h 209-221. -/
noncomputable def column (A : Band) (k : ℕ) : Res Band :=
  Res.foldl (eliminate k) A (List.range' (k + 1) (min (A.dim - 1) (k + A.nl) - k))

/-- `lu_decompose`, spline.h 189-222. -/
noncomputable def luDecompose (A : Band) : Res Band := do
  let A ← Res.foldl scaleRow A (List.range A.dim)
  Res.foldl column A (List.range A.dim)

/-- `l_solve`, spline.h 224-237.  `b` has `A.dim` elements. -/
def lSolve (A : Band) (b : ℕ → ℝ) : Res (ℕ → ℝ) :=
  Res.foldl (fun x i => do
    let sum ← Res.foldl (fun s j => do let a ← A.entry i j; pure (s + a * x j)) 0
      (List.range' (i - A.nl) (i - (i - A.nl)))
    let d ← A.saved i
    pure (Function.update x i (b i * d - sum))) (fun _ => 0) (List.range A.dim)

/-- `r_solve`, spline.h 239-252: `i` runs downwards. -/
noncomputable def rSolve (A : Band) (b : ℕ → ℝ) : Res (ℕ → ℝ) :=
  Res.foldl (fun x i => do
    let sum ← Res.foldl (fun s j => do let a ← A.entry i j; pure (s + a * x j)) 0
      (List.range' (i + 1) (min (A.dim - 1) (i + A.nu) - i))
    let d ← A.entry i i
    pure (Function.update x i ((b i - sum) / d))) (fun _ => 0) (List.range A.dim).reverse

/-- `lu_solve`, spline.h 254-265, with the default argument `is_lu_decomposed = false`. -/
noncomputable def luSolve (A : Band) (b : ℕ → ℝ) : Res (ℕ → ℝ) := do
  let A ← A.luDecompose
  let y ← A.lSolve b
  A.rSolve y

end Band

/-- `bd_type`, spline.h 82-85. -/
inductive BdType where
  | firstDeriv
  | secondDeriv
  deriving DecidableEq

/-- The settings of a spline object before `set_points`, spline.h 93-95. -/
structure SplineOpts where
  left : BdType
  right : BdType
  leftValue : ℝ
  rightValue : ℝ
  forceLinear : Bool

/-- The default constructor, spline.h 99-104. -/
def SplineOpts.default : SplineOpts := ⟨.secondDeriv, .secondDeriv, 0, 0, false⟩

/-- A spline after `set_points`, spline.h 88-92: points, coefficients, left extrapolation. -/
structure Spline where
  n : ℕ
  x : ℕ → ℝ
  y : ℕ → ℝ
  a : ℕ → ℝ
  b : ℕ → ℝ
  c : ℕ → ℝ
  b0 : ℝ
  c0 : ℝ

namespace Spline

/-- The matrix of the equation system, spline.h 302-310 and the boundary rows 311-339. -/
noncomputable def system (o : SplineOpts) (n : ℕ) (x : ℕ → ℝ) : Res Band := do
  let A ← Band.create n 1 1
  let A ← Res.foldl (fun A i => do
    let A ← A.write i (i - 1) (1 / 3 * (x i - x (i - 1)))
    let A ← A.write i i (2 / 3 * (x (i + 1) - x (i - 1)))
    A.write i (i + 1) (1 / 3 * (x (i + 1) - x i))) A (List.range' 1 (n - 2))
  let A ← match o.left with
    | .secondDeriv => do
      let A ← A.write 0 0 2
      A.write 0 1 0
    | .firstDeriv => do
      let A ← A.write 0 0 (2 * (x 1 - x 0))
      A.write 0 1 (1 * (x 1 - x 0))
  match o.right with
    | .secondDeriv => do
      let A ← A.write (n - 1) (n - 1) 2
      A.write (n - 1) (n - 2) 0
    | .firstDeriv => do
      let A ← A.write (n - 1) (n - 1) (2 * (x (n - 1) - x (n - 2)))
      A.write (n - 1) (n - 2) (1 * (x (n - 1) - x (n - 2)))

/-- The right-hand side, spline.h 308, 315, 321, 329, 336. -/
noncomputable def rhs (o : SplineOpts) (n : ℕ) (x y : ℕ → ℝ) (i : ℕ) : ℝ :=
  if i = 0 then
    match o.left with
    | .secondDeriv => o.leftValue
    | .firstDeriv => 3 * ((y 1 - y 0) / (x 1 - x 0) - o.leftValue)
  else if i = n - 1 then
    match o.right with
    | .secondDeriv => o.rightValue
    | .firstDeriv => 3 * (o.rightValue - (y (n - 1) - y (n - 2)) / (x (n - 1) - x (n - 2)))
  else (y (i + 1) - y i) / (x (i + 1) - x i) - (y i - y (i - 1)) / (x i - x (i - 1))

open Classical in
/-- `set_points(x, y, cubic_spline)`, spline.h 286-375. -/
noncomputable def setPoints (o : SplineOpts) (xs ys : List ℝ) (cubic : Bool) : Res Spline := do
  Res.assert (xs.length = ys.length)
  Res.assert (2 < xs.length)
  let n := xs.length
  let x := fun i => xs.getD i 0
  let y := fun i => ys.getD i 0
  Res.assert (∀ i < n - 1, x i < x (i + 1))
  let b ← if cubic then do
      let A ← system o n x
      A.luSolve (rhs o n x y)
    else pure fun _ => 0
  let a : ℕ → ℝ := if cubic then fun i => 1 / 3 * (b (i + 1) - b i) / (x (i + 1) - x i) else fun _ => 0
  let c : ℕ → ℝ := if cubic then fun i =>
      (y (i + 1) - y i) / (x (i + 1) - x i) - 1 / 3 * (2 * b i + b (i + 1)) * (x (i + 1) - x i)
    else fun i => (y (i + 1) - y i) / (x (i + 1) - x i)
  let h := x (n - 1) - x (n - 2)
  pure
    { n := n, x := x, y := y
      a := Function.update a (n - 1) 0
      c := Function.update c (n - 1) (3 * a (n - 2) * h * h + 2 * b (n - 2) * h + c (n - 2))
      b := if o.forceLinear then Function.update b (n - 1) 0 else b
      b0 := if o.forceLinear then 0 else b 0
      c0 := c 0 }

open Classical in
/-- `lower_bound(m_x.begin(), m_x.end(), t) - m_x.begin()`: the number of leading points below `t`
    (standard library, spline.h 382). -/
noncomputable def lowerBound (s : Spline) (t : ℝ) : ℕ :=
  ((List.range s.n).takeWhile fun i => s.x i < t).length

open Classical in
/-- `operator()(t)`, spline.h 377-398. -/
noncomputable def eval (s : Spline) (t : ℝ) : Res ℝ := do
  let idx := s.lowerBound t - 1
  Res.assert (idx < s.n ∧ 0 < s.n)
  let h := t - s.x idx
  pure (if t < s.x 0 then (s.b0 * h + s.c0) * h + s.y 0
    else if t > s.x (s.n - 1) then (s.b (s.n - 1) * h + s.c (s.n - 1)) * h + s.y (s.n - 1)
    else ((s.a idx * h + s.b idx) * h + s.c idx) * h + s.y idx)

/-- `get_coeff(idx, power)`, spline.h 400-414. -/
def getCoeff (s : Spline) (idx power : ℕ) : Res ℝ := do
  Res.assert (idx < s.n)
  if power = 0 then pure (s.y idx)
  else if power = 1 then pure (s.c idx)
  else if power = 2 then pure (s.b idx)
  else if power = 3 then pure (s.a idx)
  else Res.throw .invalidArgument

open Classical in
/-- `deriv(order, t)`, spline.h 416-472. -/
noncomputable def deriv (s : Spline) (order : ℕ) (t : ℝ) : Res ℝ := do
  Res.assert (0 < order)
  let idx := s.lowerBound t - 1
  Res.assert (idx < s.n ∧ 0 < s.n)
  let h := t - s.x idx
  pure (if t < s.x 0 then
      (if order = 1 then 2 * s.b0 * h + s.c0
      else if order = 2 then 2 * s.b0 * h
      else 0)
    else if t > s.x (s.n - 1) then
      (if order = 1 then 2 * s.b (s.n - 1) * h + s.c (s.n - 1)
      else if order = 2 then 2 * s.b (s.n - 1)
      else 0)
    else
      (if order = 1 then (3 * s.a idx * h + 2 * s.b idx) * h + s.c idx
      else if order = 2 then 6 * s.a idx * h + 2 * s.b idx
      else if order = 3 then 6 * s.a idx
      else 0))

end Spline
end CTInt
