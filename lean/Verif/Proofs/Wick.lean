import Verif.Spec.Inverse
import Mathlib.LinearAlgebra.Matrix.SchurComplement
import Mathlib.Analysis.RCLike.Basic
import Mathlib.Data.List.GetD

/-!
# Wick's theorem for products of operator pairs
-/

set_option linter.all false

namespace CTInt

section

variable {K : Type} [Field K]

theorem detN_corner {n : ℕ} {g g' : ℕ → ℕ → K} (h : ∀ i j, i ≠ 0 ∨ j ≠ 0 → g' i j = g i j) :
    detN (n + 1) g' = detN (n + 1) g + (g' 0 0 - g 0 0) * detN n fun i j => g (i + 1) (j + 1) := by
  unfold detN
  rw [Matrix.det_succ_row_zero, Matrix.det_succ_row_zero, Fin.sum_univ_succ, Fin.sum_univ_succ]
  have e : ∀ k : Fin (n + 1), (toM (n + 1) (n + 1) g').submatrix Fin.succ k.succAbove = (toM (n + 1) (n + 1) g).submatrix Fin.succ k.succAbove := by
    intro k
    ext i j
    exact h _ _ (Or.inl (by simp))
  have e0 : (toM (n + 1) (n + 1) g).submatrix Fin.succ (Fin.succAbove 0) = toM n n fun i j => g (i + 1) (j + 1) := by
    ext i j
    simp [toM]
  have e1 : ∀ k : Fin n, toM (n + 1) (n + 1) g' 0 k.succ = toM (n + 1) (n + 1) g 0 k.succ := fun k => h _ _ (Or.inr (by simp))
  simp only [e, e1, e0]
  have e2 : toM (n + 1) (n + 1) g' 0 0 = g' 0 0 := rfl
  have e3 : toM (n + 1) (n + 1) g 0 0 = g 0 0 := rfl
  rw [e2, e3]
  simp only [Fin.val_zero, pow_zero, one_mul]
  ring

theorem detN_schur {n : ℕ} {g : ℕ → ℕ → K} (h : g 0 0 ≠ 0) :
    detN (n + 1) g = g 0 0 * detN n fun i j => g (i + 1) (j + 1) - g (i + 1) 0 * g 0 (j + 1) / g 0 0 := by
  unfold detN
  set A : Matrix (Fin (n + 1)) (Fin (n + 1)) K := Matrix.of fun i j => if i = 0 then g 0 j else g i j - g i 0 / g 0 0 * g 0 j with hA
  have e : (toM (n + 1) (n + 1) g).det = A.det := by
    refine Matrix.det_eq_of_forall_row_eq_smul_add_const (fun i => if i = 0 then 0 else g i 0 / g 0 0) 0 (by simp) fun i j => ?_
    show g i j = A i j + (if i = 0 then 0 else g i 0 / g 0 0) * A 0 j
    simp only [hA, Matrix.of_apply, if_true]
    split_ifs with hi
    · subst hi; simp
    · ring
  rw [e, Matrix.det_succ_column_zero, Fin.sum_univ_succ]
  have e1 : ∀ k : Fin n, A k.succ 0 = 0 := by
    intro k
    simp only [hA, Matrix.of_apply, Fin.succ_ne_zero, if_false]
    show g _ 0 - g _ 0 / g 0 0 * g 0 0 = 0
    field_simp
    ring
  have e0 : A.submatrix (Fin.succAbove 0) Fin.succ = toM n n fun i j => g (i + 1) (j + 1) - g (i + 1) 0 * g 0 (j + 1) / g 0 0 := by
    ext i j
    simp only [hA, Matrix.submatrix_apply, Matrix.of_apply, Fin.zero_succAbove, Fin.succ_ne_zero, if_false]
    show g (i + 1) (j + 1) - _ = g (i + 1) (j + 1) - _
    simp only [Fin.val_succ]
    ring
  simp only [e1, e0]
  have e2 : A 0 0 = g 0 0 := by simp [hA]
  rw [e2]
  simp

end

variable {K : Type} [RCLike K] {A : Type} [Ring A] [Algebra K A] {V D : Submodule K A}

/-- Creators `V` and annihilators `D`: anticommutators are numbers, those of two of a kind are zero. -/
structure Fermions (V D : Submodule K A) (p : A → A → K) : Prop where
  mixed : ∀ b ∈ V, ∀ d ∈ D, b * d + d * b = algebraMap K A (p b d)
  creators : ∀ b ∈ V, ∀ b' ∈ V, b * b' + b' * b = 0
  annihilators : ∀ d ∈ D, ∀ d' ∈ D, d * d' + d' * d = 0

/-- An average in which a creator on the left can be replaced by an anticommutator. -/
structure Quasi (V : Submodule K A) (ω : A →ₗ[K] K) : Prop where
  one : ω 1 = 1
  free : ∀ b ∈ V, ∃ b₀ ∈ V, ∀ Y, ω (b * Y) = ω (b₀ * Y + Y * b₀)

variable {ω : A →ₗ[K] K} {p : A → A → K}

/-- G0 - α for operator pairs from left to right. -/
noncomputable def wickG (ω : A →ₗ[K] K) (l : List (A × A × K)) : ℕ → ℕ → K := fun i j =>
  (if j ≤ i then ω ((l.getD j (0, 0, 0)).1 * (l.getD i (0, 0, 0)).2.1) else - ω ((l.getD i (0, 0, 0)).2.1 * (l.getD j (0, 0, 0)).1)) -
    if i = j then (l.getD j (0, 0, 0)).2.2 else 0

/-- b d - α. -/
def pairOp (x : A × A × K) : A := x.1 * x.2.1 - algebraMap K A x.2.2

section

variable (hF : Fermions V D p) (hω : Quasi V ω)
include hF hω

theorem Quasi.two {b d : A} (hb : b ∈ V) (hd : d ∈ D) {b₀ : A} (h0 : b₀ ∈ V) (h : ∀ Y, ω (b * Y) = ω (b₀ * Y + Y * b₀)) : ω (b * d) = p b₀ d := by
  rw [h, hF.mixed b₀ h0 d hd, Algebra.algebraMap_eq_smul_one, map_smul, hω.one, smul_eq_mul, mul_one]

theorem Quasi.four {b d b' d' : A} (hb : b ∈ V) (hd : d ∈ D) (hb' : b' ∈ V) (hd' : d' ∈ D) :
    ω (b * d * (b' * d')) = ω (b * d) * ω (b' * d') + ω (b * d') * ω (d * b') := by
  obtain ⟨b₀, h0, h⟩ := hω.free b hb
  rw [hω.two hF hb hd h0 h, hω.two hF hb hd' h0 h, mul_assoc, h]
  have e : b₀ * (d * (b' * d')) + d * (b' * d') * b₀ = p b₀ d • (b' * d') + p b₀ d' • (d * b') := by
    have e1 := hF.mixed b₀ h0 d hd
    have e2 := hF.mixed b₀ h0 d' hd'
    have e3 := hF.creators b₀ h0 b' hb'
    rw [Algebra.algebraMap_eq_smul_one] at e1 e2
    have k1 : b₀ * d = p b₀ d • (1 : A) - d * b₀ := by rw [← e1]; abel
    have k2 : d' * b₀ = p b₀ d' • (1 : A) - b₀ * d' := by rw [← e2]; abel
    have k3 : b₀ * b' = - (b' * b₀) := eq_neg_of_add_eq_zero_left e3
    have : b₀ * (d * (b' * d')) = p b₀ d • (b' * d') + d * (b' * (b₀ * d')) := by
      rw [← mul_assoc, k1, sub_mul, smul_mul_assoc, one_mul, mul_assoc, ← mul_assoc b₀, k3]
      simp only [neg_mul, mul_neg, mul_assoc, sub_neg_eq_add]
    rw [this, mul_assoc d, mul_assoc b', k2]
    simp only [mul_sub, mul_smul_comm, mul_one]
    abel
  rw [e, map_add, map_smul, map_smul, smul_eq_mul, smul_eq_mul]

theorem Quasi.four' {b d b' d' : A} (hb : b ∈ V) (hd : d ∈ D) (hb' : b' ∈ V) (hd' : d' ∈ D) :
    ω (b * d * (d' * b')) = ω (b * d) * ω (d' * b') - ω (b * d') * ω (d * b') := by
  have e := hF.mixed b' hb' d' hd'
  rw [Algebra.algebraMap_eq_smul_one] at e
  have k : d' * b' = p b' d' • (1 : A) - b' * d' := by rw [← e]; abel
  rw [k, mul_sub, map_sub, hω.four hF hb hd hb' hd', map_sub, mul_smul_comm, mul_one, map_smul, map_smul, hω.one]
  simp only [smul_eq_mul]
  ring

/-- Multiplication by a pair keeps the property. -/
theorem Quasi.next {b d : A} {α : K} (hb : b ∈ V) (hd : d ∈ D) (hP : ω (pairOp (b, d, α)) ≠ 0) :
    Quasi V ((ω (pairOp (b, d, α)))⁻¹ • ω ∘ₗ LinearMap.mulLeft K (pairOp (b, d, α))) := by
  set P := pairOp (b, d, α) with hPd
  refine ⟨?_, fun b' hb' => ?_⟩
  · show (ω P)⁻¹ • ω (P * 1) = 1
    rw [mul_one, smul_eq_mul, inv_mul_cancel₀ hP]
  · obtain ⟨b₀, h0, h⟩ := hω.free b' hb'
    obtain ⟨b₁, h1, h'⟩ := hω.free b hb
    have hP' : ω P = p b₁ d - α := by
      rw [hPd]
      unfold pairOp
      rw [map_sub, hω.two hF hb hd h1 h', Algebra.algebraMap_eq_smul_one, map_smul, hω.one, smul_eq_mul, mul_one]
    rw [hP'] at hP
    set lam := (p b' d - p b₀ d) / (p b₁ d - α) with hl
    -- P c = c P + {c,d} b for creators c
    have hc : ∀ c ∈ V, P * c = c * P + p c d • b := by
      intro c hc
      have e1 := hF.mixed c hc d hd
      have e3 := hF.creators c hc b hb
      rw [Algebra.algebraMap_eq_smul_one] at e1
      have k1 : d * c = p c d • (1 : A) - c * d := by rw [← e1]; abel
      have k3 : c * b = - (b * c) := eq_neg_of_add_eq_zero_left e3
      rw [hPd]
      unfold pairOp
      rw [sub_mul, mul_sub, mul_assoc, k1, mul_sub, mul_smul_comm, mul_one, ← mul_assoc c, k3, ← Algebra.commutes]
      simp only [neg_mul, mul_assoc]
      abel
    have hbP : b * P = - (α • b) := by
      have e3 := hF.creators b hb b hb
      have : b * b = 0 := by
        have h2 : (2 : K) • (b * b) = 0 := by rw [two_smul]; exact e3
        exact (smul_eq_zero.1 h2).resolve_left two_ne_zero
      rw [hPd]
      unfold pairOp
      rw [mul_sub, ← mul_assoc, this, zero_mul, zero_sub, Algebra.algebraMap_eq_smul_one, mul_smul_comm, mul_one]
    refine ⟨b₀ + lam • b₁, V.add_mem h0 (V.smul_mem _ h1), fun Y => ?_⟩
    show (ω P)⁻¹ • ω (P * (b' * Y)) = (ω P)⁻¹ • ω (P * ((b₀ + lam • b₁) * Y + Y * (b₀ + lam • b₁)))
    congr 1
    have L : ω (P * (b' * Y)) = ω (b' * (P * Y)) + p b' d * ω (b * Y) := by
      rw [← mul_assoc, hc b' hb', add_mul, map_add, mul_assoc, smul_mul_assoc, map_smul, smul_eq_mul]
    have R : P * ((b₀ + lam • b₁) * Y + Y * (b₀ + lam • b₁)) =
        (b₀ * (P * Y) + (P * Y) * b₀) + lam • (b₁ * (P * Y) + (P * Y) * b₁) + (p b₀ d + lam * p b₁ d) • (b * Y) := by
      have k0 := hc b₀ h0
      have k1 := hc b₁ h1
      rw [mul_add, ← mul_assoc, mul_add, k0, mul_smul_comm, k1]
      simp only [add_mul, mul_add, smul_add, smul_mul_assoc, mul_smul_comm, mul_assoc, add_smul, mul_smul]
      abel
    have R' : ω (P * ((b₀ + lam • b₁) * Y + Y * (b₀ + lam • b₁))) =
        ω (b' * (P * Y)) + lam * ω (b * (P * Y)) + (p b₀ d + lam * p b₁ d) * ω (b * Y) := by
      rw [R, map_add, map_add, map_smul, map_smul, ← h, ← h', smul_eq_mul, smul_eq_mul]
    rw [L, R', ← mul_assoc b, hbP, neg_mul, smul_mul_assoc, map_neg, map_smul, smul_eq_mul]
    have : lam * (p b₁ d - α) = p b' d - p b₀ d := by rw [hl]; field_simp
    linear_combination (- ω (b * Y)) * this

end

/-- Wick's theorem: the average of a product of pairs is a determinant. -/
theorem wick_pairs (hF : Fermions V D p) (l : List (A × A × K)) (hl : ∀ x ∈ l, x.1 ∈ V ∧ x.2.1 ∈ D) {ω : A →ₗ[K] K} (hω : Quasi V ω) :
    ω (l.map pairOp).prod = detN l.length (wickG ω l) := by
  induction l generalizing ω with
  | nil => simp [detN, hω.one]
  | cons x l ih =>
    obtain ⟨b, d, α⟩ := x
    have hx := hl _ (List.mem_cons_self)
    have hl' : ∀ x ∈ l, x.1 ∈ V ∧ x.2.1 ∈ D := fun x h => hl x (List.mem_cons_of_mem _ h)
    have hmem : ∀ i < l.length, (l.getD i (0, 0, 0)).1 ∈ V ∧ (l.getD i (0, 0, 0)).2.1 ∈ D := by
      intro i hi
      rw [List.getD_eq_getElem _ _ hi]
      exact hl' _ (List.getElem_mem _)
    have key : ∀ a : K, ω (pairOp (b, d, a)) ≠ 0 →
        ω (((b, d, a) :: l).map pairOp).prod = detN (l.length + 1) (wickG ω ((b, d, a) :: l)) := by
      intro a ha
      have h00 : wickG ω ((b, d, a) :: l) 0 0 = ω (pairOp (b, d, a)) := by
        simp only [wickG, List.getD_cons_zero, le_refl, if_true]
        unfold pairOp
        rw [map_sub, Algebra.algebraMap_eq_smul_one, map_smul, hω.one, smul_eq_mul, mul_one]
      rw [detN_schur (by rw [h00]; exact ha), List.map_cons, List.prod_cons, h00]
      have := ih hl' (hω.next hF hx.1 hx.2 ha)
      have e : ω (pairOp (b, d, a) * (l.map pairOp).prod) = ω (pairOp (b, d, a)) *
          ((ω (pairOp (b, d, a)))⁻¹ • ω ∘ₗ LinearMap.mulLeft K (pairOp (b, d, a))) (l.map pairOp).prod := by
        show _ = ω (pairOp (b, d, a)) * ((ω (pairOp (b, d, a)))⁻¹ • ω (pairOp (b, d, a) * (l.map pairOp).prod))
        rw [smul_eq_mul, ← mul_assoc, mul_inv_cancel₀ ha, one_mul]
      rw [e, this]
      congr 1
      unfold detN
      congr 1
      ext i j
      obtain ⟨hbj, -⟩ := hmem j j.2
      obtain ⟨-, hdi⟩ := hmem i i.2
      have hc : ∀ Y, ω (pairOp (b, d, a) * Y) = ω (b * d * Y) - a * ω Y := by
        intro Y
        unfold pairOp
        rw [sub_mul, map_sub, Algebra.algebraMap_eq_smul_one, smul_mul_assoc, one_mul, map_smul, smul_eq_mul]
      have hp : ω (pairOp (b, d, a)) = ω (b * d) - a := by
        have := hc 1
        rwa [mul_one, mul_one, hω.one, mul_one] at this
      show wickG ((ω (pairOp (b, d, a)))⁻¹ • ω ∘ₗ LinearMap.mulLeft K (pairOp (b, d, a))) l i j =
        wickG ω ((b, d, a) :: l) (i + 1) (j + 1) - wickG ω ((b, d, a) :: l) (i + 1) 0 * wickG ω ((b, d, a) :: l) 0 (j + 1) / ω (pairOp (b, d, a))
      unfold wickG
      simp only [List.getD_cons_succ, List.getD_cons_zero, add_le_add_iff_right, Nat.add_right_cancel_iff, Nat.le_zero, Nat.add_eq_zero_iff,
        one_ne_zero, and_false, if_false, Nat.zero_le, if_true, Nat.succ_ne_zero, sub_zero, Nat.zero_ne_add_one, LinearMap.smul_apply,
        LinearMap.comp_apply, LinearMap.mulLeft_apply, smul_eq_mul, hc, hω.four hF hx.1 hx.2 hbj hdi, hω.four' hF hx.1 hx.2 hbj hdi]
      rw [hp] at ha ⊢
      split_ifs <;> field_simp <;> ring
    -- affine in α
    have hL : ∀ a : K, ω (((b, d, a) :: l).map pairOp).prod = ω (b * d * (l.map pairOp).prod) - a * ω (l.map pairOp).prod := by
      intro a
      rw [List.map_cons, List.prod_cons]
      unfold pairOp
      rw [sub_mul, map_sub, Algebra.algebraMap_eq_smul_one, smul_mul_assoc, one_mul, map_smul, smul_eq_mul]
    have hR : ∀ a : K, detN (l.length + 1) (wickG ω ((b, d, a) :: l)) =
        detN (l.length + 1) (wickG ω ((b, d, 0) :: l)) - a * detN l.length fun i j => wickG ω ((b, d, (0 : K)) :: l) (i + 1) (j + 1) := by
      intro a
      rw [detN_corner (g := wickG ω ((b, d, (0 : K)) :: l)) (g' := wickG ω ((b, d, a) :: l))]
      · simp only [wickG, List.getD_cons_zero, le_refl, if_true]
        ring
      · intro i j hij
        unfold wickG
        rcases i with _ | i <;> rcases j with _ | j
        · simp at hij
        all_goals simp
    have hp : ∀ a : K, ω (pairOp (b, d, a)) = ω (b * d) - a := by
      intro a
      unfold pairOp
      rw [map_sub, Algebra.algebraMap_eq_smul_one, map_smul, hω.one, smul_eq_mul, mul_one]
    have k1 := key (ω (b * d) - 1) (by rw [hp]; simp)
    have k2 := key (ω (b * d) - 2) (by rw [hp]; simp)
    rw [hL, hR] at k1 k2
    show ω (((b, d, α) :: l).map pairOp).prod = detN (l.length + 1) (wickG ω ((b, d, α) :: l))
    rw [hL, hR]
    linear_combination (2 - (ω (b * d) - α)) * k1 + ((ω (b * d) - α) - 1) * k2

end CTInt
