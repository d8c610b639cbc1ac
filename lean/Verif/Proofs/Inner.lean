import Mathlib.Analysis.Normed.Algebra.Exponential
import Mathlib.Analysis.Normed.Algebra.MatrixExponential
import Mathlib.Analysis.Normed.Operator.Mul
import Mathlib.Topology.Algebra.Module.FiniteDimension
import Mathlib.LinearAlgebra.Matrix.PosDef
import Mathlib.Analysis.RCLike.Basic
import Verif.Proofs.Wick

/-!
# Evolution inside subspaces that commutation leaves invariant; thermal averages
-/

set_option linter.all false

namespace CTInt

open NormedSpace Matrix ComplexOrder

section

variable {K : Type} [RCLike K] {A : Type} [NormedRing A] [NormedAlgebra K A] [CompleteSpace A]

variable (K A) in
noncomputable def lmulHom : A →+* (A →L[K] A) where
  toFun := ContinuousLinearMap.mul K A
  map_one' := by ext; simp
  map_mul' x y := by ext; simp [mul_assoc]
  map_zero' := by simp
  map_add' x y := by simp

variable (K A) in
noncomputable def rmulHom : Aᵐᵒᵖ →+* (A →L[K] A) where
  toFun x := (ContinuousLinearMap.mul K A).flip x.unop
  map_one' := by ext; simp
  map_mul' x y := by ext; simp [mul_assoc]
  map_zero' := by simp
  map_add' x y := by simp

theorem exp_conj_mem {V : Submodule K A} (hV : IsClosed (V : Set A)) {X : A} (h : ∀ b ∈ V, X * b - b * X ∈ V) {b : A} (hb : b ∈ V) :
    exp X * b * exp (-X) ∈ V := by
  have hs : ∀ L : A →L[K] A, HasSum (fun k : ℕ => ((k.factorial : K)⁻¹) • L ^ k) (exp L) := fun L => NormedSpace.exp_series_hasSum_exp' (𝕂 := K) L
  letI : NormedAlgebra ℚ K := NormedAlgebra.restrictScalars ℚ ℝ K
  letI : NormedAlgebra ℚ A := NormedAlgebra.restrictScalars ℚ K A
  letI : NormedAlgebra ℚ (A →L[K] A) := NormedAlgebra.restrictScalars ℚ K _
  set L : A →L[K] A := lmulHom K A X + rmulHom K A (MulOpposite.op (-X)) with hL
  have e1 : exp (lmulHom K A X) = lmulHom K A (exp X) := (NormedSpace.map_exp (lmulHom K A) (ContinuousLinearMap.mul K A).continuous X).symm
  have e2 : exp (rmulHom K A (MulOpposite.op (-X))) = rmulHom K A (MulOpposite.op (exp (-X))) := by
    rw [← NormedSpace.exp_op]
    exact (NormedSpace.map_exp (rmulHom K A) ((ContinuousLinearMap.mul K A).flip.continuous.comp MulOpposite.continuous_unop) _).symm
  have hc : Commute (lmulHom K A X) (rmulHom K A (MulOpposite.op (-X))) := by
    show _ * _ = _ * _
    ext y
    simp [lmulHom, rmulHom, mul_assoc]
  have e3 : exp L = exp (lmulHom K A X) * exp (rmulHom K A (MulOpposite.op (-X))) := NormedSpace.exp_add_of_commute hc
  have e4 : exp X * b * exp (-X) = exp L b := by
    rw [e3, e1, e2]
    simp [lmulHom, rmulHom, mul_assoc]
  have hLV : ∀ c ∈ V, L c ∈ V := by
    intro c hcV
    have := h c hcV
    simpa [hL, lmulHom, rmulHom, sub_eq_add_neg] using this
  have hpow : ∀ k : ℕ, (L ^ k) b ∈ V := by
    intro k
    induction k with
    | zero => simpa using hb
    | succ k ih =>
      rw [pow_succ']
      exact hLV _ ih
  have hs' := (hs L).mapL (ContinuousLinearMap.apply K A b)
  rw [e4]
  exact hV.mem_of_tendsto hs' (Filter.Eventually.of_forall fun F => Submodule.sum_mem _ fun k _ => V.smul_mem _ (hpow k))

end

section

variable {K : Type} [RCLike K] {n : Type} [Fintype n] [DecidableEq n]

open scoped Matrix.Norms.Operator in
theorem matrix_conj_mem {V : Submodule K (Matrix n n K)} {X : Matrix n n K} (h : ∀ b ∈ V, X * b - b * X ∈ V) {b : Matrix n n K} (hb : b ∈ V) :
    exp X * b * exp (-X) ∈ V :=
  exp_conj_mem (Submodule.closed_of_finiteDimensional V) h hb

theorem matrix_exp_neg_mul (X : Matrix n n K) : exp (-X) * exp X = 1 := by
  letI : NormedAlgebra ℚ K := NormedAlgebra.restrictScalars ℚ ℝ K
  rw [← Matrix.exp_add_of_commute _ _ (Commute.neg_left (Commute.refl X))]
  simp

theorem matrix_exp_mul_neg (X : Matrix n n K) : exp X * exp (-X) = 1 := by
  simpa using matrix_exp_neg_mul (-X)

/-- The average in a thermal state. -/
noncomputable def thermalL (β : ℝ) (H : Matrix n n K) : Matrix n n K →ₗ[K] K where
  toFun X := (exp (-(β : K) • H) * X).trace / (exp (-(β : K) • H)).trace
  map_add' X Y := by simp [mul_add, add_div]
  map_smul' k X := by simp [mul_div_assoc]

theorem thermal_trace_ne [Nonempty n] {β : ℝ} {H : Matrix n n K} (hH : H.IsHermitian) : (exp (-(β : K) • H)).trace ≠ 0 := by
  letI : NormedAlgebra ℚ K := NormedAlgebra.restrictScalars ℚ ℝ K
  set X : Matrix n n K := (((-β / 2 : ℝ) : K)) • H with hX
  have hh : X.IsHermitian := by
    show Xᴴ = X
    rw [hX, Matrix.conjTranspose_smul, hH.eq]
    simp
  have e : -(β : K) • H = X + X := by
    rw [hX, ← add_smul]
    congr 1
    push_cast
    ring
  rw [e, Matrix.exp_add_of_commute _ _ (Commute.refl X)]
  intro h
  have h1 : (exp X)ᴴ = exp X := hh.exp
  have h2 : ((exp X)ᴴ * exp X).trace = 0 := by rw [h1]; exact h
  rw [Matrix.trace_conjTranspose_mul_self_eq_zero_iff] at h2
  have := matrix_exp_neg_mul X
  rw [h2, mul_zero] at this
  exact zero_ne_one this

/-- The thermal average of a Hermitian Hamiltonian whose commutator maps the operators `V` into themselves. -/
theorem thermal_quasi [Nonempty n] (β : ℝ) {H : Matrix n n K} (hH : H.IsHermitian) {V : Submodule K (Matrix n n K)}
    (h : ∀ b ∈ V, H * b - b * H ∈ V) : Quasi V (thermalL β H) := by
  letI : NormedAlgebra ℚ K := NormedAlgebra.restrictScalars ℚ ℝ K
  have hz := thermal_trace_ne (β := β) hH
  refine ⟨?_, fun b hb => ?_⟩
  · show (_ * 1 : Matrix n n K).trace / _ = 1
    rw [mul_one, div_self hz]
  set X : Matrix n n K := (((β / 2 : ℝ) : K)) • H with hX
  have hh : X.IsHermitian := by
    show Xᴴ = X
    rw [hX, Matrix.conjTranspose_smul, hH.eq]
    simp
  have hXV : ∀ b ∈ V, X * b - b * X ∈ V := fun b hb => by
    have := V.smul_mem ((β / 2 : ℝ) : K) (h b hb)
    rw [hX, Matrix.smul_mul, Matrix.mul_smul, ← smul_sub]
    exact this
  have e : -(β : K) • H = -X + -X := by
    rw [hX, ← neg_smul, ← add_smul]
    congr 1
    push_cast
    ring
  have eρ : exp (-(β : K) • H) = exp (-X) * exp (-X) := by rw [e, Matrix.exp_add_of_commute _ _ (Commute.refl _)]
  -- `b ↦ ρ⁻¹ b ρ`
  let φ : V →ₗ[K] V :=
    { toFun := fun b => ⟨exp X * (exp X * b.1 * exp (-X)) * exp (-X), matrix_conj_mem hXV (matrix_conj_mem hXV b.2)⟩
      map_add' := fun x y => by ext1; simp [mul_add, add_mul]
      map_smul' := fun k x => by ext1; simp }
  have hinj : Function.Injective ((LinearMap.id : V →ₗ[K] V) + φ) := by
    rw [injective_iff_map_eq_zero]
    intro x hx
    have hx : x.1 + exp X * (exp X * x.1 * exp (-X)) * exp (-X) = 0 := congrArg Subtype.val hx
    have h1 : (exp X)ᴴ = exp X := hh.exp
    have h2 : (exp (-X))ᴴ = exp (-X) := hh.neg.exp
    have ht : ((x.1)ᴴ * x.1).trace + ((exp X * x.1 * exp (-X))ᴴ * (exp X * x.1 * exp (-X))).trace = 0 := by
      rw [Matrix.conjTranspose_mul, Matrix.conjTranspose_mul, h1, h2]
      have e2 : (exp (-X) * ((x.1)ᴴ * exp X) * (exp X * x.1 * exp (-X))).trace = ((x.1)ᴴ * (exp X * (exp X * x.1 * exp (-X)) * exp (-X))).trace := by
        rw [mul_assoc, Matrix.trace_mul_comm]
        simp only [mul_assoc]
      rw [e2, ← Matrix.trace_add, ← mul_add, hx]
      simp
    have p1 := Matrix.posSemidef_conjTranspose_mul_self x.1
    have p2 := Matrix.posSemidef_conjTranspose_mul_self (exp X * x.1 * exp (-X))
    have q1 := p1.trace_nonneg
    have q2 := p2.trace_nonneg
    have : ((x.1)ᴴ * x.1).trace = 0 := by
      refine le_antisymm ?_ q1
      rw [← ht]
      exact le_add_of_nonneg_right q2
    rw [Matrix.trace_conjTranspose_mul_self_eq_zero_iff] at this
    exact Subtype.ext this
  obtain ⟨b₀, hb₀⟩ := (LinearMap.injective_iff_surjective.mp hinj) ⟨b, hb⟩
  have hb₀ : b₀.1 + exp X * (exp X * b₀.1 * exp (-X)) * exp (-X) = b := congrArg Subtype.val hb₀
  refine ⟨b₀.1, b₀.2, fun Y => ?_⟩
  show (exp (-(β : K) • H) * (b * Y)).trace / (exp (-(β : K) • H)).trace = (exp (-(β : K) • H) * (b₀.1 * Y + Y * b₀.1)).trace / _
  congr 1
  rw [mul_add, Matrix.trace_add, ← hb₀, add_mul, mul_add, Matrix.trace_add]
  congr 1
  rw [eρ]
  have e3 : exp (-X) * exp (-X) * (exp X * (exp X * b₀.1 * exp (-X)) * exp (-X) * Y) = b₀.1 * (exp (-X) * exp (-X) * Y) := by
    calc _ = exp (-X) * (exp (-X) * exp X) * exp X * b₀.1 * exp (-X) * exp (-X) * Y := by simp only [mul_assoc]
      _ = b₀.1 * exp (-X) * exp (-X) * Y := by rw [matrix_exp_neg_mul, mul_one, matrix_exp_neg_mul, one_mul]
      _ = _ := by simp only [mul_assoc]
  rw [e3, Matrix.trace_mul_comm]
  simp only [mul_assoc]

end

end CTInt
