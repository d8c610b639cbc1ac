import Mathlib.LinearAlgebra.Matrix.SchurComplement
import Mathlib.LinearAlgebra.Matrix.Adjugate
import Mathlib.Tactic.Ring
import Mathlib.Tactic.LinearCombination
import Mathlib.Tactic.FieldSimp
import Verif.Model.ReplaceRC
import Verif.Proofs.Perm
import Verif.Proofs.Replace
import Verif.Spec.ReplaceRC

/-!
# Replacing one row together with one column: matrix identities (helper lemmas for C68)
-/

set_option linter.all false

open Matrix

namespace CTInt

variable {K : Type} [Field K]

/-- A product of a `1 × 1` matrix with another. -/
theorem mul11 (A B : Matrix (Fin 1) (Fin 1) K) : (A * B) 0 0 = A 0 0 * B 0 0 := by
  simp [Matrix.mul_apply]

theorem det_two_blocks (a b c d : Matrix (Fin 1) (Fin 1) K) :
    (fromBlocks a b c d).det = a 0 0 * d 0 0 - b 0 0 * c 0 0 := by
  rw [← Matrix.det_submatrix_equiv_self (finSumFinEquiv (m := 1) (n := 1)).symm]
  have h0 : (finSumFinEquiv (m := 1) (n := 1)).symm 0 = Sum.inl 0 := by decide
  have h1 : (finSumFinEquiv (m := 1) (n := 1)).symm 1 = Sum.inr 0 := by decide
  have := Matrix.det_fin_two ((fromBlocks a b c d).submatrix (finSumFinEquiv (m := 1) (n := 1)).symm
    (finSumFinEquiv (m := 1) (n := 1)).symm)
  refine Eq.trans this ?_
  simp only [Matrix.submatrix_apply]
  rw [show (finSumFinEquiv (m := 1) (n := 1)).symm (0 : Fin 2) = Sum.inl 0 from h0,
    show (finSumFinEquiv (m := 1) (n := 1)).symm (1 : Fin 2) = Sum.inr 0 from h1]
  simp

section
variable {n : ℕ} {P tP : Matrix (Fin n) (Fin n) K} {Q Q0 tQ : Matrix (Fin n) (Fin 1) K}
  {R R0 tR : Matrix (Fin 1) (Fin n) K} {S S0 tS : Matrix (Fin 1) (Fin 1) K}

/-- The value `lambda` of the code. -/
def rcLam (tP : Matrix (Fin n) (Fin n) K) (tQ Q : Matrix (Fin n) (Fin 1) K)
    (tR R : Matrix (Fin 1) (Fin n) K) (tS S : Matrix (Fin 1) (Fin 1) K) : K :=
  tS 0 0 * (S 0 0 - (R * (tP * Q)) 0 0) + ((R * tQ) * (tR * Q)) 0 0

/-- `lambda` is the ratio of the determinants. -/
theorem rc_det (h : fromBlocks tP tQ tR tS * fromBlocks P Q0 R0 S0 = 1) :
    (fromBlocks P Q R S).det = rcLam tP tQ Q tR R tS S * (fromBlocks P Q0 R0 S0).det := by
  have h' : fromBlocks P Q0 R0 S0 * fromBlocks tP tQ tR tS = 1 := mul_eq_one_comm.mp h
  set U : Matrix (Fin n ⊕ Fin 1) (Fin 1 ⊕ Fin 1) K := fromBlocks 0 (Q - Q0) 1 0 with hU
  set V : Matrix (Fin 1 ⊕ Fin 1) (Fin n ⊕ Fin 1) K := fromBlocks (R - R0) (S - S0) 0 1 with hV
  have hUV : U * V = fromBlocks P Q R S - fromBlocks P Q0 R0 S0 := by
    rw [hU, hV, fromBlocks_multiply, eq_sub_iff_add_eq, fromBlocks_add]
    simp
  have e1 : fromBlocks P Q R S = fromBlocks P Q0 R0 S0 *
      (1 + (fromBlocks tP tQ tR tS * U) * V) := by
    rw [Matrix.mul_add, Matrix.mul_one, Matrix.mul_assoc (fromBlocks tP tQ tR tS), ← Matrix.mul_assoc, h',
      Matrix.one_mul, hUV, add_sub_cancel]
  rw [e1, Matrix.det_mul, mul_comm]
  congr 1
  rw [Matrix.det_one_add_mul_comm, ← Matrix.mul_assoc, hU, hV, fromBlocks_multiply, fromBlocks_multiply,
    ← fromBlocks_one, fromBlocks_add, det_two_blocks]
  -- relations between the parts of a matrix and of its inverse
  rw [fromBlocks_multiply, ← fromBlocks_one, fromBlocks_inj] at h h'
  obtain ⟨h11, h12, h21, h22⟩ := h
  obtain ⟨k11, k12, k21, k22⟩ := h'
  unfold rcLam
  have a1 : (R0 * tQ) 0 0 + S0 0 0 * tS 0 0 = 1 := by
    have := congrFun (congrFun k22 0) 0
    rw [Matrix.add_apply, mul11] at this; simpa using this
  have a2 : (tR * Q0) 0 0 + tS 0 0 * S0 0 0 = 1 := by
    have := congrFun (congrFun h22 0) 0
    rw [Matrix.add_apply, mul11] at this; simpa using this
  have b1 : tP * Q0 = -(tQ * S0) := eq_neg_of_add_eq_zero_left h12
  have b2 : R0 * tP = -(S0 * tR) := eq_neg_of_add_eq_zero_left k21
  have c1 : (R * (tP * Q0)) 0 0 = -((R * tQ) 0 0 * S0 0 0) := by
    rw [b1, Matrix.mul_neg, Matrix.neg_apply, ← Matrix.mul_assoc, mul11]
  have c2 : (R0 * (tP * Q)) 0 0 = -(S0 0 0 * (tR * Q) 0 0) := by
    rw [← Matrix.mul_assoc, b2, Matrix.neg_mul, Matrix.neg_apply, Matrix.mul_assoc, mul11]
  have c3 : (R0 * (tP * Q0)) 0 0 = -(S0 0 0 * (tR * Q0) 0 0) := by
    rw [← Matrix.mul_assoc, b2, Matrix.neg_mul, Matrix.neg_apply, Matrix.mul_assoc, mul11]
  simp only [Matrix.mul_zero, Matrix.mul_one, Matrix.one_mul, Matrix.zero_mul, zero_add, add_zero,
    Matrix.add_apply, Matrix.add_mul, Matrix.sub_mul, Matrix.mul_sub, Matrix.sub_apply, Matrix.one_apply_eq,
    Matrix.mul_assoc]
  have e1 : (R * (tQ * (tR * Q))) 0 0 = (R * tQ) 0 0 * (tR * Q) 0 0 := by
    rw [← Matrix.mul_assoc, mul11]
  simp only [mul11, c1, c2, c3, e1, Matrix.zero_apply]
  have d1 : (R0 * tQ) 0 0 = 1 - S0 0 0 * tS 0 0 := by linear_combination a1
  have d2 : (tR * Q0) 0 0 = 1 - S0 0 0 * tS 0 0 := by linear_combination a2
  simp only [d1, d2]
  ring

/-- The regular branch: the matrix written is the inverse of the new matrix. -/
theorem rc_regular (h : fromBlocks tP tQ tR tS * fromBlocks P Q0 R0 S0 = 1) (ht : tS 0 0 ≠ 0)
    (hl : rcLam tP tQ Q tR R tS S ≠ 0) {M : Matrix (Fin n) (Fin n) K}
    (hM : M = (-1 / tS 0 0) • (tQ * tR) + tP) :
    fromBlocks (M + (tS 0 0 / rcLam tP tQ Q tR R tS S) • ((M * Q) * (R * M)))
      ((-tS 0 0 / rcLam tP tQ Q tR R tS S) • (M * Q))
      ((-tS 0 0 / rcLam tP tQ Q tR R tS S) • (R * M))
      (Matrix.of fun _ _ => tS 0 0 / rcLam tP tQ Q tR R tS S) * fromBlocks P Q R S = 1 := by
  generalize hlam : rcLam tP tQ Q tR R tS S = lam at *
  rw [fromBlocks_multiply, ← fromBlocks_one, fromBlocks_inj] at h
  obtain ⟨h11, h12, h21, h22⟩ := h
  have tSs : ∀ (X : Matrix (Fin 1) (Fin n) K), tS * X = tS 0 0 • X := by
    intro X; ext i j; fin_cases i; simp [Matrix.mul_apply]
  have cS : ∀ (c : K) (X : Matrix (Fin 1) (Fin n) K), (Matrix.of fun (_ _ : Fin 1) => c) * X = c • X := by
    intro c X; ext i j; fin_cases i; simp [Matrix.mul_apply]
  have sc : ∀ (X : Matrix (Fin n) (Fin 1) K) (Y : Matrix (Fin 1) (Fin 1) K), X * Y = Y 0 0 • X := by
    intro X Y; ext i j; fin_cases j; simp [Matrix.mul_apply]; exact mul_comm _ _
  have sc1 : ∀ (X Y : Matrix (Fin 1) (Fin 1) K), X * Y = Y 0 0 • X := by
    intro X Y; ext i j; fin_cases j; simp [Matrix.mul_apply]; exact mul_comm _ _
  have hMP : M * P = 1 := by
    have hp : tR * P = -(tS 0 0 • R0) := by
      rw [← tSs]; exact eq_neg_of_add_eq_zero_left h21
    rw [hM, Matrix.add_mul, Matrix.smul_mul, Matrix.mul_assoc, hp, Matrix.mul_neg, Matrix.mul_smul,
      smul_neg, ← h11, smul_smul]
    have : -1 / tS 0 0 * tS 0 0 = -1 := by field_simp
    rw [this, neg_smul, one_smul, neg_neg, add_comm]
  have hS : S 0 0 - (R * (M * Q)) 0 0 = lam / tS 0 0 := by
    rw [← hlam, hM]
    unfold rcLam
    simp only [Matrix.add_mul, Matrix.mul_add, Matrix.smul_mul, Matrix.mul_smul, Matrix.add_apply,
      Matrix.smul_apply, smul_eq_mul, Matrix.mul_assoc]
    simp only [← Matrix.mul_assoc R tQ, mul11]
    field_simp
    ring
  rw [fromBlocks_multiply, ← fromBlocks_one, fromBlocks_inj]
  refine ⟨?_, ?_, ?_, ?_⟩
  · rw [Matrix.add_mul, hMP, Matrix.smul_mul, Matrix.smul_mul, Matrix.mul_assoc (M * Q), Matrix.mul_assoc R,
      hMP, Matrix.mul_one, neg_div, neg_smul, add_assoc, add_neg_cancel, add_zero]
  · rw [Matrix.add_mul, Matrix.smul_mul, Matrix.smul_mul, Matrix.mul_assoc (M * Q), Matrix.mul_assoc R,
      sc (M * Q), sc (M * Q) S, smul_smul, smul_smul]
    have : M * Q + (tS 0 0 / lam * (R * (M * Q)) 0 0) • (M * Q) + (-tS 0 0 / lam * S 0 0) • (M * Q) =
        (1 + tS 0 0 / lam * (R * (M * Q)) 0 0 + -tS 0 0 / lam * S 0 0) • (M * Q) := by
      rw [add_smul, add_smul, one_smul]
    rw [this]
    have e : 1 + tS 0 0 / lam * (R * (M * Q)) 0 0 + -tS 0 0 / lam * S 0 0 = 0 := by
      have : 1 + tS 0 0 / lam * (R * (M * Q)) 0 0 + -tS 0 0 / lam * S 0 0 =
        1 - tS 0 0 / lam * (S 0 0 - (R * (M * Q)) 0 0) := by ring
      rw [this, hS]; field_simp; ring
    rw [e, zero_smul]
  · rw [Matrix.smul_mul, Matrix.mul_assoc, hMP, Matrix.mul_one, cS, neg_div, neg_smul, neg_add_cancel]
  · ext i j
    fin_cases i; fin_cases j
    simp only [Fin.mk_zero, Fin.zero_eta, Matrix.add_apply, Matrix.smul_mul, Matrix.smul_apply, mul11,
      Matrix.of_apply, Matrix.one_apply_eq, smul_eq_mul, Matrix.mul_assoc]
    have : -tS 0 0 / lam * (R * (M * Q)) 0 0 + tS 0 0 / lam * S 0 0 =
      tS 0 0 / lam * (S 0 0 - (R * (M * Q)) 0 0) := by ring
    rw [this, hS]; field_simp

/-- The singular branch with `tS = 0`: the new matrix times the matrix written is the identity except
    for the corner row, where `S` times the row written appears. -/
theorem rc_singular (h : fromBlocks tP tQ tR tS * fromBlocks P Q0 R0 S0 = 1) (ht : tS 0 0 = 0)
    (ha : (R * tQ) 0 0 ≠ 0) (hb : (tR * Q) 0 0 ≠ 0)
    {tQp : Matrix (Fin n) (Fin 1) K} {tRp : Matrix (Fin 1) (Fin n) K}
    (hq : tQp = (1 / (R * tQ) 0 0) • tQ) (hr : tRp = (1 / (tR * Q) 0 0) • tR) :
    fromBlocks P Q R S * fromBlocks
      (tP + ((-(tQp * (R * tP)) - (tP * Q) * tRp) + (tQp * (R * (tP * Q))) * tRp)) tQp tRp 0 =
      fromBlocks 1 0 (S 0 0 • tRp) 1 := by
  have h' : fromBlocks P Q0 R0 S0 * fromBlocks tP tQ tR tS = 1 := mul_eq_one_comm.mp h
  have ht0 : tS = 0 := by ext i j; fin_cases i; fin_cases j; exact ht
  rw [fromBlocks_multiply, ← fromBlocks_one, fromBlocks_inj] at h h'
  obtain ⟨k11, k12, k21, k22⟩ := h'
  rw [ht0, Matrix.mul_zero, add_zero] at k12
  have hPq : P * tQp = 0 := by rw [hq, Matrix.mul_smul, k12, smul_zero]
  have hRq : R * tQp = 1 := by
    ext i j; fin_cases i; fin_cases j
    simp [hq, ha]
  have hrQ : tRp * Q = 1 := by
    ext i j; fin_cases i; fin_cases j
    simp [hr, hb]
  have hb' : ∀ X : Matrix (Fin n) (Fin 1) K, X * tRp = (1 / (tR * Q) 0 0) • (X * tR) := by
    intro X; rw [hr, Matrix.mul_smul]
  have hPP : P * tP = 1 - Q0 * tR := eq_sub_of_add_eq k11
  have hrr : (tR * Q) 0 0 • tRp = tR := by rw [hr, smul_smul]; simp [hb]
  have htRQ : ∀ X : Matrix (Fin n) (Fin 1) K, X * (tR * Q) * tRp = X * tR := by
    intro X
    have : X * (tR * Q) = (tR * Q) 0 0 • X := by
      ext i j; fin_cases j; simp [Matrix.mul_apply (M := X)]; exact mul_comm _ _
    rw [this, Matrix.smul_mul, ← Matrix.mul_smul, hrr]
  rw [fromBlocks_multiply, fromBlocks_inj]
  refine ⟨?_, ?_, ?_, ?_⟩
  · have e1 : P * (tP * Q * tRp) = Q * tRp - Q0 * tR := by
      rw [← Matrix.mul_assoc, ← Matrix.mul_assoc, hPP, Matrix.sub_mul, Matrix.one_mul, Matrix.sub_mul,
        Matrix.mul_assoc Q0, htRQ]
    have e2 : P * (tQp * (R * tP)) = 0 := by rw [← Matrix.mul_assoc, hPq, Matrix.zero_mul]
    have e3 : P * (tQp * (R * (tP * Q)) * tRp) = 0 := by
      rw [← Matrix.mul_assoc, ← Matrix.mul_assoc, hPq, Matrix.zero_mul, Matrix.zero_mul]
    rw [Matrix.mul_add, Matrix.mul_add, Matrix.mul_sub, Matrix.mul_neg, e1, e2, e3, hPP]
    abel
  · rw [hPq, Matrix.mul_zero, add_zero]
  · have e2 : R * (tQp * (R * tP)) = R * tP := by rw [← Matrix.mul_assoc, hRq, Matrix.one_mul]
    have e3 : R * (tQp * (R * (tP * Q)) * tRp) = R * (tP * Q) * tRp := by
      rw [← Matrix.mul_assoc, ← Matrix.mul_assoc, hRq, Matrix.one_mul]
    rw [Matrix.mul_add, Matrix.mul_add, Matrix.mul_sub, Matrix.mul_neg, e2, e3, ← Matrix.mul_assoc R (tP * Q)]
    have : S * tRp = S 0 0 • tRp := by ext i j; fin_cases i; simp [Matrix.mul_apply]
    rw [this]
    abel
  · rw [hRq, Matrix.mul_zero, add_zero]

end

/-! ### The parts of the exchanged matrices -/

theorem swapBoth_eq (X : DMat ℝ) (a b : ℕ) : Src.swapBoth X a b = Src.applySwaps [(a, b)] X := rfl

theorem swapBoth_rows (X : DMat ℝ) (a b : ℕ) : (Src.swapBoth X a b).rows = X.rows := rfl
theorem swapBoth_cols (X : DMat ℝ) (a b : ℕ) : (Src.swapBoth X a b).cols = X.cols := rfl
theorem swapBoth_val (X : DMat ℝ) (a b i j : ℕ) :
    (Src.swapBoth X a b).val i j = X.val (Equiv.swap a b i) (Equiv.swap a b j) := rfl

theorem swapBoth_twice (X : DMat ℝ) (a b : ℕ) : Src.swapBoth (Src.swapBoth X a b) a b = X := by
  cases X
  simp [Src.swapBoth, DMat.swapCol, DMat.swapRow]

theorem isInvOf_swapBoth {N a b : ℕ} (ha : a < N) (hb : b < N) {X : DMat ℝ} {g : ℕ → ℕ → ℝ} :
    IsInvOf (Src.swapBoth X a b) N (fun i j => g (Equiv.swap a b i) (Equiv.swap a b j)) ↔ IsInvOf X N g := by
  have key : ∀ (X : DMat ℝ) (g : ℕ → ℕ → ℝ), IsInvOf X N g →
      IsInvOf (Src.swapBoth X a b) N (fun i j => g (Equiv.swap a b i) (Equiv.swap a b j)) := by
    intro X g h
    refine (h.applySwaps (l := [(a, b)]) (by simp [ha, hb])).congr fun i hi j hj => ?_
    simp [permOf_cons_apply]
  refine ⟨fun h => ?_, key X g⟩
  have := key _ _ h
  rw [swapBoth_twice] at this
  exact this.congr fun i _ j _ => by simp

theorem detN_swapBoth {N a b : ℕ} (ha : a < N) (hb : b < N) (g : ℕ → ℕ → ℝ) :
    detN N (fun i j => g (Equiv.swap a b i) (Equiv.swap a b j)) = detN N g := by
  have := detN_permOf (n := N) (g := g) (l := [(a, b)]) (by simp [ha, hb])
  simpa [permOf_cons_apply] using this

theorem swap_ne_of_lt {n m i : ℕ} (hi : i < n) : Equiv.swap m n i ≠ m := by
  rw [Equiv.swap_apply_def]
  split_ifs <;> omega

theorem mat_val {A : DMat ℝ} (n m : ℕ) (i : Fin n) (j : Fin m) : A.mat n m i j = A.val i j := rfl

section
variable {n m : ℕ} {X Dr Dc : DMat ℝ} {g : ℕ → ℕ → ℝ}

/-- The new matrix. -/
abbrev rcNew (g : ℕ → ℕ → ℝ) (m : ℕ) (Dr Dc : DMat ℝ) : ℕ → ℕ → ℝ :=
  withRowCol g m (fun j => Dr.val 0 j) (fun i => Dc.val i 0)

/-- The blocks of the exchanged new matrix. -/
theorem rc_new_blocks (hm : m < n + 1) (hrc : Dr.val 0 m = Dc.val m 0) :
    (toM n n fun i j => rcNew g m Dr Dc (Equiv.swap m n i) (Equiv.swap m n j)) =
      (toM n n fun i j => g (Equiv.swap m n i) (Equiv.swap m n j)) ∧
    (toM n 1 fun i j => rcNew g m Dr Dc (Equiv.swap m n i) (Equiv.swap m n (n + j))) =
      ((Dc.swapRow m n).block 0 0 n 1).mat n 1 ∧
    (toM 1 n fun i j => rcNew g m Dr Dc (Equiv.swap m n (n + i)) (Equiv.swap m n j)) =
      ((Dr.swapCol m n).block 0 0 1 n).mat 1 n ∧
    (toM 1 1 fun i j => rcNew g m Dr Dc (Equiv.swap m n (n + i)) (Equiv.swap m n (n + j))) =
      Matrix.of fun _ _ => Dc.val m 0 := by
  refine ⟨?_, ?_, ?_, ?_⟩
  · refine toM_congr fun i hi j hj => ?_
    unfold rcNew withRowCol
    rw [if_neg (swap_ne_of_lt hi), if_neg (swap_ne_of_lt hj)]
  · refine toM_congr fun i hi j hj => ?_
    obtain rfl : j = 0 := by omega
    unfold rcNew withRowCol
    rw [if_neg (swap_ne_of_lt hi)]
    simp [DMat.block, DMat.swapRow]
  · refine toM_congr fun i hi j hj => ?_
    obtain rfl : i = 0 := by omega
    unfold rcNew withRowCol
    simp [DMat.block, DMat.swapCol]
  · ext i j
    fin_cases i; fin_cases j
    simp [rcNew, withRowCol, hrc]

/-- The parts of the exchanged inverse and of the exchanged matrix. -/
theorem rc_old_blocks (hm : m < n + 1) (hX : IsInvOf X (n + 1) g) :
    fromBlocks (((Src.swapBoth X m n).block 0 0 n n).mat n n) (((Src.swapBoth X m n).block 0 n n 1).mat n 1)
        (((Src.swapBoth X m n).block n 0 1 n).mat 1 n) (Matrix.of fun _ _ => (Src.swapBoth X m n).val n n) *
      fromBlocks (toM n n fun i j => g (Equiv.swap m n i) (Equiv.swap m n j))
        (toM n 1 fun i j => g (Equiv.swap m n i) (Equiv.swap m n (n + j)))
        (toM 1 n fun i j => g (Equiv.swap m n (n + i)) (Equiv.swap m n j))
        (toM 1 1 fun i j => g (Equiv.swap m n (n + i)) (Equiv.swap m n (n + j))) = 1 := by
  have h := (isInvOf_add.mp ((isInvOf_swapBoth hm (Nat.lt_succ_self n)).mpr hX)).2.2
  convert h using 2
  congr 1
  · refine toM_congr fun i _ j _ => ?_
    simp [DMat.block]
  · refine toM_congr fun i _ j _ => ?_
    simp [DMat.block]
  · refine toM_congr fun i _ j _ => ?_
    simp [DMat.block]
  · ext i j
    fin_cases i; fin_cases j
    simp

/-- `lambda` of the code in terms of matrices. -/
theorem rc_lam_eq (tP tQ tR Q R : DMat ℝ) (n : ℕ) (tS S : ℝ) (hPc : tP.cols = n) (hRc : R.cols = n)
    (htR : tR.cols = n) (htQ : tQ.cols = 1) :
    tS * (S - (R.mul (tP.mul Q)).val 0 0) + ((R.mul tQ).mul (tR.mul Q)).val 0 0 =
      rcLam (tP.mat n n) (tQ.mat n 1) (Q.mat n 1) (tR.mat 1 n) (R.mat 1 n)
        (Matrix.of fun _ _ => tS) (Matrix.of fun _ _ => S) := by
  unfold rcLam
  rw [← DMat.mat_mul (l := 1) hPc, ← DMat.mat_mul (n := 1) hRc, ← DMat.mat_mul (n := 1) (l := 1) hRc,
    ← DMat.mat_mul (n := 1) (l := 1) htR, ← DMat.mat_mul (n := 1) (l := 1) (by simpa using htQ)]
  rfl

theorem rc_ratio (hm : m < n + 1) (hX : IsInvOf X (n + 1) g) (hrc : Dr.val 0 m = Dc.val m 0) :
    rcLam (((Src.swapBoth X m n).block 0 0 n n).mat n n) (((Src.swapBoth X m n).block 0 n n 1).mat n 1)
        (((Dc.swapRow m n).block 0 0 n 1).mat n 1) (((Src.swapBoth X m n).block n 0 1 n).mat 1 n)
        (((Dr.swapCol m n).block 0 0 1 n).mat 1 n) (Matrix.of fun _ _ => (Src.swapBoth X m n).val n n)
        (Matrix.of fun _ _ => Dc.val m 0) =
      detN (n + 1) (rcNew g m Dr Dc) / detN (n + 1) g := by
  rw [eq_div_iff hX.det_ne_zero]
  have h1 := rc_det (Q := ((Dc.swapRow m n).block 0 0 n 1).mat n 1)
    (R := ((Dr.swapCol m n).block 0 0 1 n).mat 1 n) (S := Matrix.of fun _ _ => Dc.val m 0)
    (rc_old_blocks hm hX)
  obtain ⟨b1, b2, b3, b4⟩ := rc_new_blocks (g := g) hm hrc
  rw [← b1, ← b2, ← b3, ← b4] at h1
  rw [← detN_swapBoth hm (Nat.lt_succ_self n) (rcNew g m Dr Dc), ← detN_swapBoth hm (Nat.lt_succ_self n) g]
  unfold detN
  rw [det_toM_add, det_toM_add, h1, b1, ← b2, ← b3, ← b4]

theorem rcPut_blocks {Y A B C : DMat ℝ} {s : ℝ} (hA : A.rows = n ∧ A.cols = n) (hB : B.rows = n ∧ B.cols = 1)
    (hC : C.rows = 1 ∧ C.cols = n) :
    toM n n (Src.rcPut Y A B C s n).val = A.mat n n ∧
    (toM n 1 fun i j => (Src.rcPut Y A B C s n).val i (n + j)) = B.mat n 1 ∧
    (toM 1 n fun i j => (Src.rcPut Y A B C s n).val (n + i) j) = C.mat 1 n ∧
    (toM 1 1 fun i j => (Src.rcPut Y A B C s n).val (n + i) (n + j)) = Matrix.of fun _ _ => s := by
  refine ⟨?_, ?_, ?_, ?_⟩
  · refine toM_congr fun i hi j hj => ?_
    unfold Src.rcPut DMat.set
    simp only
    rw [if_neg (by omega), DMat.setBlock_out (by omega), DMat.setBlock_out (by omega),
      DMat.setBlock_in (by omega)]
    simp
  · refine toM_congr fun i hi j hj => ?_
    unfold Src.rcPut DMat.set
    simp only
    rw [if_neg (by omega), DMat.setBlock_out (by omega), DMat.setBlock_in (by omega)]
    simp
  · refine toM_congr fun i hi j hj => ?_
    unfold Src.rcPut DMat.set
    simp only
    rw [if_neg (by omega), DMat.setBlock_in (by omega)]
    simp
  · ext i j
    fin_cases i; fin_cases j
    simp [Src.rcPut, DMat.set]

/-- The matrix written is the inverse of the new one if and only if its parts are. -/
theorem rc_result (hm : m < n + 1) (hrc : Dr.val 0 m = Dc.val m 0) {Y A B C : DMat ℝ} {s : ℝ}
    (hY : Y.rows = n + 1 ∧ Y.cols = n + 1)
    (hA : A.rows = n ∧ A.cols = n) (hB : B.rows = n ∧ B.cols = 1) (hC : C.rows = 1 ∧ C.cols = n) :
    IsInvOf (Src.swapBoth (Src.rcPut Y A B C s n) m n) (n + 1) (rcNew g m Dr Dc) ↔
      fromBlocks (A.mat n n) (B.mat n 1) (C.mat 1 n) (Matrix.of fun _ _ => s) *
        fromBlocks (toM n n fun i j => g (Equiv.swap m n i) (Equiv.swap m n j))
          (((Dc.swapRow m n).block 0 0 n 1).mat n 1) (((Dr.swapCol m n).block 0 0 1 n).mat 1 n)
          (Matrix.of fun _ _ => Dc.val m 0) = 1 := by
  rw [← isInvOf_swapBoth hm (Nat.lt_succ_self n), swapBoth_twice, isInvOf_add]
  obtain ⟨b1, b2, b3, b4⟩ := rc_new_blocks (g := g) hm hrc
  obtain ⟨c1, c2, c3, c4⟩ := rcPut_blocks (Y := Y) (s := s) hA hB hC
  rw [b1, b2, b3, b4, c1, c2, c3, c4]
  exact ⟨fun h => h.2.2, fun h => ⟨hY.1, hY.2, h⟩⟩

/-- Part of the result in the singular branch, as matrices. -/
theorem rcSingP_mat {tP tQp tRp Q R : DMat ℝ} (h1 : tP.cols = n) (h2 : tQp.cols = 1) (h4 : R.cols = n)
    (h5 : Q.cols = 1) :
    (Src.rcSingP tP tQp tRp Q R).mat n n = tP.mat n n + ((-(tQp.mat n 1 * (R.mat 1 n * tP.mat n n)) -
      (tP.mat n n * Q.mat n 1) * tRp.mat 1 n) +
      (tQp.mat n 1 * (R.mat 1 n * (tP.mat n n * Q.mat n 1))) * tRp.mat 1 n) := by
  unfold Src.rcSingP
  rw [DMat.mat_add, DMat.mat_add, DMat.mat_sub, DMat.mat_neg, DMat.mat_mul h2, DMat.mat_mul h4,
    DMat.mat_mul (m := 1) (by simpa using h5), DMat.mat_mul h1,
    DMat.mat_mul (m := 1) (by simpa using h5), DMat.mat_mul h2, DMat.mat_mul h4, DMat.mat_mul h1]

theorem rcReg_mat (tP tQ tR Q R : DMat ℝ) (h1 : tQ.cols = 1) (h2 : tR.cols = n) (h3 : Q.cols = 1)
    (h4 : R.cols = n) (a b c : ℝ) :
    ((((tQ.mul tR).smul a).add tP).add
      ((((((tQ.mul tR).smul a).add tP).mul Q).mul (R.mul (((tQ.mul tR).smul a).add tP))).smul c)).mat n n =
      (a • (tQ.mat n 1 * tR.mat 1 n) + tP.mat n n) +
        c • (((a • (tQ.mat n 1 * tR.mat 1 n) + tP.mat n n) * Q.mat n 1) *
          (R.mat 1 n * (a • (tQ.mat n 1 * tR.mat 1 n) + tP.mat n n))) ∧
    (((((tQ.mul tR).smul a).add tP).mul Q).smul b).mat n 1 =
      b • ((a • (tQ.mat n 1 * tR.mat 1 n) + tP.mat n n) * Q.mat n 1) ∧
    ((R.mul (((tQ.mul tR).smul a).add tP)).smul b).mat 1 n =
      b • (R.mat 1 n * (a • (tQ.mat n 1 * tR.mat 1 n) + tP.mat n n)) := by
  have hM : (((tQ.mul tR).smul a).add tP).cols = n := by simpa using h2
  have e : (((tQ.mul tR).smul a).add tP).mat n n = a • (tQ.mat n 1 * tR.mat 1 n) + tP.mat n n := by
    rw [DMat.mat_add, DMat.mat_smul, DMat.mat_mul h1]
  rw [← e]
  generalize ((tQ.mul tR).smul a).add tP = Mm at *
  refine ⟨?_, ?_, ?_⟩
  · rw [DMat.mat_add, DMat.mat_smul, DMat.mat_mul (m := 1) (by simpa using h3), DMat.mat_mul hM,
      DMat.mat_mul h4]
  · rw [DMat.mat_smul, DMat.mat_mul hM]
  · rw [DMat.mat_smul, DMat.mat_mul h4]

theorem mul_val11 (A B : DMat ℝ) (h : A.cols = 1) : (A.mul B).val 0 0 = A.val 0 0 * B.val 0 0 := by
  rw [DMat.mul_val, h]; simp

/-- The singular branch is exact if and only if the new diagonal element vanishes. -/
theorem rc_sing_iff (hm : m < n + 1) (hX : IsInvOf X (n + 1) g) (hrc : Dr.val 0 m = Dc.val m 0)
    {Y tP tQ tR Q R : DMat ℝ} {a b s : ℝ} (eY : Y = Src.swapBoth X m n) (eP : tP = Y.block 0 0 n n)
    (eQ : tQ = Y.block 0 n n 1) (eR : tR = Y.block n 0 1 n)
    (eQ' : Q = (Dc.swapRow m n).block 0 0 n 1) (eR' : R = (Dr.swapCol m n).block 0 0 1 n)
    (ea : a = (R.mul tQ).val 0 0) (eb : b = (tR.mul Q).val 0 0) (h0 : X.val m m = 0) (hs : s = 0)
    (ha : a ≠ 0) (hb : b ≠ 0) :
    IsInvOf (Src.swapBoth (Src.rcPut Y (Src.rcSingP tP (tQ.smul (1 / a)) (tR.smul (1 / b)) Q R)
      (tQ.smul (1 / a)) (tR.smul (1 / b)) s n) m n) (n + 1) (rcNew g m Dr Dc) ↔ Dc.val m 0 = 0 := by
  have hY : Y.rows = n + 1 ∧ Y.cols = n + 1 := by rw [eY]; exact ⟨hX.1, hX.2.1⟩
  rw [rc_result hm hrc hY (by subst eP; exact ⟨rfl, rfl⟩) (by subst eQ; exact ⟨rfl, rfl⟩)
    (by subst eR; exact ⟨rfl, rfl⟩)]
  rw [rcSingP_mat (by subst eP; rfl) (by subst eQ; rfl) (by subst eR'; rfl) (by subst eQ'; rfl), hs]
  have hS0 : (Matrix.of fun (_ _ : Fin 1) => (0 : ℝ)) = 0 := rfl
  have h := rc_old_blocks hm hX
  have hR : R.cols = n := by rw [eR']; rfl
  have htR : tR.cols = n := by rw [eR]; rfl
  have e1 : (R.mat 1 n * tQ.mat n 1) 0 0 = a := by
    rw [← DMat.mat_mul (n := 1) (l := 1) hR, ea]; rfl
  have e2 : (tR.mat 1 n * Q.mat n 1) 0 0 = b := by
    rw [← DMat.mat_mul (n := 1) (l := 1) htR, eb]; rfl
  have hk := rc_singular (S := Matrix.of fun (_ _ : Fin 1) => Dc.val m 0) (Q := Q.mat n 1) (R := R.mat 1 n)
    (tQp := (tQ.smul (1 / a)).mat n 1) (tRp := (tR.smul (1 / b)).mat 1 n) h
    (by simp [swapBoth_val, h0])
    (by rw [← eY, ← eQ, e1]; exact ha) (by rw [← eY, ← eR, e2]; exact hb)
    (by rw [← eY, ← eQ, e1, DMat.mat_smul]) (by rw [← eY, ← eR, e2, DMat.mat_smul])
  rw [← eY, ← eP] at hk
  rw [hS0, ← eQ', ← eR', mul_eq_one_comm, hk]
  rw [← fromBlocks_one, fromBlocks_inj]
  constructor
  · rintro ⟨-, -, h3, -⟩
    by_contra hne
    have h4 : (tR.smul (1 / b)).mat 1 n = 0 := by
      have := smul_eq_zero.mp h3
      exact this.resolve_left (by simpa using hne)
    have h5 : (1 / b) • (tR.mat 1 n * Q.mat n 1) = 0 := by
      rw [← Matrix.smul_mul, ← DMat.mat_smul, h4, Matrix.zero_mul]
    have h6 := congrFun (congrFun h5 0) 0
    rw [Matrix.smul_apply, e2] at h6
    simp [hb] at h6
  · intro h3
    refine ⟨rfl, rfl, ?_, rfl⟩
    simp [h3]

/-- The regular branch. -/
theorem rc_reg (hm : m < n + 1) (hX : IsInvOf X (n + 1) g) (hrc : Dr.val 0 m = Dc.val m 0)
    {Y tP tQ tR Q R Mm : DMat ℝ} {lam : ℝ} (eY : Y = Src.swapBoth X m n) (eP : tP = Y.block 0 0 n n)
    (eQ : tQ = Y.block 0 n n 1) (eR : tR = Y.block n 0 1 n)
    (eQ' : Q = (Dc.swapRow m n).block 0 0 n 1) (eR' : R = (Dr.swapCol m n).block 0 0 1 n)
    (eM : Mm = ((tQ.mul tR).smul (-1 / X.val m m)).add tP) (h0 : X.val m m ≠ 0)
    (hl : lam = detN (n + 1) (rcNew g m Dr Dc) / detN (n + 1) g) (hd : lam ≠ 0) :
    IsInvOf (Src.swapBoth (Src.rcPut Y (Mm.add (((Mm.mul Q).mul (R.mul Mm)).smul (X.val m m / lam)))
      ((Mm.mul Q).smul (-X.val m m / lam)) ((R.mul Mm).smul (-X.val m m / lam)) (X.val m m / lam) n) m n)
      (n + 1) (rcNew g m Dr Dc) := by
  have hY : Y.rows = n + 1 ∧ Y.cols = n + 1 := by rw [eY]; exact ⟨hX.1, hX.2.1⟩
  have hMr : Mm.rows = n := by rw [eM, eQ]; rfl
  have hMc : Mm.cols = n := by rw [eM, eR]; rfl
  have hQc : Q.cols = 1 := by rw [eQ']; rfl
  have hRr : R.rows = 1 := by rw [eR']; rfl
  rw [rc_result hm hrc hY (by simp [hMr, hMc]) (by simp [hMr, hQc]) (by simp [hRr, hMc])]
  have h := rc_old_blocks hm hX
  have hS : (Src.swapBoth X m n).val n n = X.val m m := by simp [swapBoth_val]
  have hk := rc_regular (S := Matrix.of fun (_ _ : Fin 1) => Dc.val m 0)
    (Q := ((Dc.swapRow m n).block 0 0 n 1).mat n 1) (R := ((Dr.swapCol m n).block 0 0 1 n).mat 1 n) h
    (by simpa [hS] using h0) (by rw [rc_ratio hm hX hrc, ← hl]; exact hd) rfl
  rw [rc_ratio hm hX hrc, ← hl] at hk
  simp only [Matrix.of_apply] at hk
  rw [hS, ← eQ', ← eR', ← eY, ← eP, ← eQ, ← eR] at hk
  obtain ⟨r1, r2, r3⟩ := rcReg_mat (n := n) tP tQ tR Q R (by rw [eQ]; rfl) (by rw [eR]; rfl) hQc
    (by rw [eR']; rfl) (-1 / X.val m m) (-X.val m m / lam) (X.val m m / lam)
  rw [← eM] at r1 r2 r3
  rw [r1, r2, r3, ← eQ', ← eR']
  exact hk

/-- The diagonal element of the inverse is the minor divided by the determinant. -/
theorem inv_diag_minor (hm : m < n + 1) (hX : IsInvOf X (n + 1) g) :
    X.val m m = minorDet n g m / detN (n + 1) g := by
  rw [eq_div_iff hX.det_ne_zero]
  have h1 : toM (n + 1) (n + 1) X.val = (toM (n + 1) (n + 1) g)⁻¹ := (Matrix.inv_eq_left_inv hX.2.2).symm
  have h2 := congrFun (congrFun h1 ⟨m, hm⟩) ⟨m, hm⟩
  rw [toM_apply, Matrix.inv_def, Matrix.smul_apply, Matrix.adjugate_fin_succ_eq_det_submatrix] at h2
  have hd : (toM (n + 1) (n + 1) g).det ≠ 0 := hX.det_ne_zero
  have h3 : ((toM (n + 1) (n + 1) g).submatrix (Fin.succAbove ⟨m, hm⟩) (Fin.succAbove ⟨m, hm⟩)).det =
      minorDet n g m := by
    unfold minorDet detN
    congr 1
    ext i j
    have e : ∀ i : Fin n, ((Fin.succAbove ⟨m, hm⟩ i : Fin (n + 1)) : ℕ) = skipOne m i := by
      intro i
      unfold skipOne Fin.succAbove
      simp only [Fin.lt_def, Fin.val_castSucc]
      split_ifs <;> simp
    simp [e]
  rw [h3, Ring.inverse_eq_inv', ← two_mul, pow_mul] at h2
  simp at h2
  rw [h2]
  unfold detN
  field_simp

/-- What a call does: the value and the matrix written in each of the two branches. -/
theorem replaceRowCol_spec (eps : ℝ) (sing : Bool) (hm : m < n + 1) (hX : IsInvOf X (n + 1) g)
    (hDr : Dr.rows = 1 ∧ Dr.cols = n + 1) (hDc : Dc.rows = n + 1 ∧ Dc.cols = 1)
    (hrc : Dr.val 0 m = Dc.val m 0) :
    ∃ Z, Src.replaceRowCol eps X Dr Dc m sing =
        .ok (detN (n + 1) (rcNew g m Dr Dc) / detN (n + 1) g, Z) ∧
      (detN (n + 1) (rcNew g m Dr Dc) ≠ 0 →
        ((sing = true ∨ (|X.val m m| < eps ∧
            |X.val m m / (detN (n + 1) (rcNew g m Dr Dc) / detN (n + 1) g)| < eps)) →
          X.val m m = 0 → (IsInvOf Z (n + 1) (rcNew g m Dr Dc) ↔ Dc.val m 0 = 0)) ∧
        (¬ (sing = true ∨ (|X.val m m| < eps ∧
            |X.val m m / (detN (n + 1) (rcNew g m Dr Dc) / detN (n + 1) g)| < eps)) →
          X.val m m ≠ 0 → IsInvOf Z (n + 1) (rcNew g m Dr Dc))) := by
  have hratio := rc_ratio (g := g) hm hX hrc
  unfold Src.replaceRowCol Src.rcChecks
  rw [hX.1, hX.2.1, hDr.1, hDr.2, hDc.1, hDc.2]
  simp only [Res.assert_true trivial, Res.assert_true hm, Res.assert_true hrc, and_self, Res.bind_ok,
    Nat.add_sub_cancel]
  have hl := rc_lam_eq ((Src.swapBoth X m n).block 0 0 n n) ((Src.swapBoth X m n).block 0 n n 1)
    ((Src.swapBoth X m n).block n 0 1 n) ((Dc.swapRow m n).block 0 0 n 1) ((Dr.swapCol m n).block 0 0 1 n) n
    ((Src.swapBoth X m n).val n n) (Dc.val m 0) rfl rfl rfl rfl
  rw [hratio] at hl
  have hS : (Src.swapBoth X m n).val n n = X.val m m := by simp [swapBoth_val]
  rw [hl]
  rw [hS] at hl hratio ⊢
  generalize hlam : detN (n + 1) (rcNew g m Dr Dc) / detN (n + 1) g = lam at *
  have hne : detN (n + 1) (rcNew g m Dr Dc) ≠ 0 ↔ lam ≠ 0 := by
    rw [← hlam, div_ne_zero_iff]
    exact ⟨fun h => ⟨h, hX.det_ne_zero⟩, fun h => h.1⟩
  rw [hne]
  by_cases hc : sing = true ∨ (|X.val m m| < eps ∧ (lam ≠ 0 ∧ |X.val m m / lam| < eps))
  · rw [if_pos hc]
    refine ⟨_, rfl, fun hd => ⟨fun _ h0 => ?_, fun hno => ?_⟩⟩
    · refine rc_sing_iff hm hX hrc rfl rfl rfl rfl rfl rfl rfl rfl h0 (by rw [h0, zero_div]) ?_ ?_
      · intro h
        rw [h0, zero_mul, zero_add] at hl
        apply hd
        rw [← hl, DMat.mul_val]
        simp [h]
      · intro h
        rw [h0, zero_mul, zero_add] at hl
        apply hd
        rw [← hl, DMat.mul_val]
        simp [h]
    · exact absurd (hc.imp id fun h => ⟨h.1, h.2.2⟩) hno
  · rw [if_neg hc]
    refine ⟨_, rfl, fun hd => ⟨fun h h0 => ?_, fun _ h0 => ?_⟩⟩
    · exact absurd (h.imp id fun h => ⟨h.1, hd, h.2⟩) hc
    · exact rc_reg hm hX hrc rfl rfl rfl rfl rfl rfl rfl h0 hlam.symm hd

/-- The variant which assumes a singular intermediate matrix. -/
theorem replaceRowCol2_spec (hm : m < n + 1) (hX : IsInvOf X (n + 1) g)
    (hDr : Dr.rows = 1 ∧ Dr.cols = n + 1) (hDc : Dc.rows = n + 1 ∧ Dc.cols = 1)
    (hrc : Dr.val 0 m = Dc.val m 0) (h0 : X.val m m = 0) :
    Src.replaceRowCol2 X Dr Dc m true = .ok (detN (n + 1) (rcNew g m Dr Dc) / detN (n + 1) g, X) ∧
    ∃ Z, Src.replaceRowCol2 X Dr Dc m false =
        .ok (detN (n + 1) (rcNew g m Dr Dc) / detN (n + 1) g, Z) ∧
      (detN (n + 1) (rcNew g m Dr Dc) ≠ 0 →
        (IsInvOf Z (n + 1) (rcNew g m Dr Dc) ↔ Dc.val m 0 = 0)) := by
  have hratio := rc_ratio (g := g) hm hX hrc
  have hl := rc_lam_eq ((Src.swapBoth X m n).block 0 0 n n) ((Src.swapBoth X m n).block 0 n n 1)
    ((Src.swapBoth X m n).block n 0 1 n) ((Dc.swapRow m n).block 0 0 n 1) ((Dr.swapCol m n).block 0 0 1 n) n
    ((Src.swapBoth X m n).val n n) (Dc.val m 0) rfl rfl rfl rfl
  have hS : (Src.swapBoth X m n).val n n = X.val m m := by simp [swapBoth_val]
  rw [hratio, hS, h0, zero_mul, zero_add] at hl
  have hl2 : (((Dr.swapCol m n).block 0 0 1 n).mul ((Src.swapBoth X m n).block 0 n n 1)).val 0 0 *
      ((((Src.swapBoth X m n).block n 0 1 n)).mul ((Dc.swapRow m n).block 0 0 n 1)).val 0 0 =
      detN (n + 1) (rcNew g m Dr Dc) / detN (n + 1) g := by
    rw [← hl]
    exact (mul_val11 _ _ rfl).symm
  have hne : detN (n + 1) (rcNew g m Dr Dc) ≠ 0 ↔ detN (n + 1) (rcNew g m Dr Dc) / detN (n + 1) g ≠ 0 := by
    rw [div_ne_zero_iff]
    exact ⟨fun h => ⟨h, hX.det_ne_zero⟩, fun h => h.1⟩
  constructor
  · unfold Src.replaceRowCol2 Src.rcChecks
    rw [hX.1, hX.2.1, hDr.1, hDr.2, hDc.1, hDc.2]
    simp only [Res.assert_true trivial, Res.assert_true hm, Res.assert_true hrc, and_self, Res.bind_ok,
      Nat.add_sub_cancel, if_true, Res.pure_eq, swapBoth_twice, hl2]
  · unfold Src.replaceRowCol2 Src.rcChecks
    rw [hX.1, hX.2.1, hDr.1, hDr.2, hDc.1, hDc.2]
    simp only [Res.assert_true trivial, Res.assert_true hm, Res.assert_true hrc, and_self, Res.bind_ok,
      Nat.add_sub_cancel, Bool.false_eq_true, if_false, Res.pure_eq, hl2]
    refine ⟨_, rfl, fun hd => ?_⟩
    rw [hne, ← hl2] at hd
    exact rc_sing_iff hm hX hrc rfl rfl rfl rfl rfl rfl rfl rfl h0 (by rw [hS, h0, zero_div])
      (left_ne_zero_of_mul hd) (right_ne_zero_of_mul hd)

end

end CTInt
