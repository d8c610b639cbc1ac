import Verif.Model.LU
import Verif.Proofs.PartHist
import Verif.Proofs.Work
import Mathlib.LinearAlgebra.Matrix.Block

/-!
# Determinants as products and their phases
-/

set_option linter.all false

namespace CTInt

variable {K : Type}

theorem luLower_det [Field K] {n : ℕ} (lu : Matrix (Fin n) (Fin n) K) : (luLower lu).det = 1 := by
  rw [Matrix.det_of_lowerTriangular _ (by
    intro i k h
    have h : i < k := h
    unfold luLower
    rw [if_neg (not_lt.mpr h.le), if_neg (ne_of_gt h)])]
  refine Finset.prod_eq_one fun i _ => ?_
  unfold luLower
  rw [if_neg (lt_irrefl i), if_pos rfl]

theorem luUpper_det [Field K] {n : ℕ} (lu : Matrix (Fin n) (Fin n) K) : (luUpper lu).det = ∏ i, lu i i := by
  rw [Matrix.det_of_upperTriangular (by
    intro i k h
    have h : k < i := h
    unfold luUpper
    rw [if_neg (not_le.mpr h)])]
  refine Finset.prod_congr rfl fun i _ => ?_
  unfold luUpper
  rw [if_pos le_rfl]

theorem sign_sq {n : ℕ} (p : Equiv.Perm (Fin n)) : ((Equiv.Perm.sign p : ℤ)) * (Equiv.Perm.sign p : ℤ) = 1 := by
  rcases Int.units_eq_one_or (Equiv.Perm.sign p) with e | e <;> rw [e] <;> rfl

theorem FullPivLU.det [Field K] {n : ℕ} {A : Matrix (Fin n) (Fin n) K} (d : FullPivLU n A) :
    A.det = (((Equiv.Perm.sign d.p : ℤ) * (Equiv.Perm.sign d.q : ℤ) : ℤ) : K) * ∏ i, d.lu i i := by
  have h := congrArg Matrix.det d.eq
  rw [Matrix.det_mul, luLower_det, luUpper_det, one_mul] at h
  have e : (A.submatrix d.p d.q).det =
      ((Equiv.Perm.sign d.p : ℤ) : K) * (((Equiv.Perm.sign d.q : ℤ) : K) * A.det) := by
    have e1 : A.submatrix d.p d.q = (A.submatrix id d.q).submatrix d.p id := rfl
    rw [e1, Matrix.det_permute, Matrix.det_permute']
  have hp : (((Equiv.Perm.sign d.p : ℤ) : K)) * ((Equiv.Perm.sign d.p : ℤ) : K) = 1 := by
    exact_mod_cast congrArg (Int.cast : ℤ → K) (sign_sq d.p)
  have hq : (((Equiv.Perm.sign d.q : ℤ) : K)) * ((Equiv.Perm.sign d.q : ℤ) : K) = 1 := by
    exact_mod_cast congrArg (Int.cast : ℤ → K) (sign_sq d.q)
  rw [← h, e, Int.cast_mul]
  linear_combination (-A.det * ((Equiv.Perm.sign d.q : ℤ) : K) * ((Equiv.Perm.sign d.q : ℤ) : K)) * hp - A.det * hq

variable [RCLike K] [DecidableEq K]

theorem luProduct_spec {n : ℕ} {A : Matrix (Fin n) (Fin n) K} (d : FullPivLU n A) (hn : 0 < n) :
    ∃ l, luProduct d = .ok l ∧ l.prod = A.det ∧ l.length = n := by
  obtain ⟨m, rfl⟩ : ∃ m, n = m + 1 := ⟨n - 1, by omega⟩
  unfold luProduct
  rw [List.ofFn_succ]
  refine ⟨_, rfl, ?_, by simp⟩
  rw [d.det, List.prod_cons, List.prod_ofFn, Fin.prod_univ_succ]
  ring

theorem phase_foldl (l : List K) (z : K) :
    l.foldl (fun ph x => if x ≠ 0 then ph * (x / ((‖x‖ : ℝ) : K)) else 0) z = z * mysign l.prod := by
  induction l generalizing z with
  | nil => simp [mysign_one]
  | cons x l ih =>
    rw [List.foldl_cons, ih, List.prod_cons, mysign_mul]
    by_cases h : x = 0
    · subst h; simp [mysign]
    · rw [if_pos h]
      unfold mysign
      ring

theorem phase_spec {n : ℕ} {A : Matrix (Fin n) (Fin n) K} (d : FullPivLU n A) :
    phaseOfDeterminant d = mysign A.det := by
  unfold phaseOfDeterminant
  rw [phase_foldl, one_mul, List.prod_ofFn, d.det, mysign_mul, mul_comm]
  congr 1
  rcases Int.units_eq_one_or (Equiv.Perm.sign d.p) with e | e <;>
    rcases Int.units_eq_one_or (Equiv.Perm.sign d.q) with e' | e' <;> rw [e, e'] <;> simp [mysign]

/-! ### Determinant matrices -/

variable {Cd Co T : Type} [LinearOrder T]
variable {lu : ∀ (n : ℕ) (A : Matrix (Fin n) (Fin n) K), FullPivLU n A} {srt : List K → List K}

theorem prod_headMul (l : List K) (hl : l ≠ []) (x : K) :
    (scaleHead x l).prod = x * l.prod := by
  cases l with
  | nil => exact absurd rfl hl
  | cons y l => simp only [scaleHead, List.prod_cons]; ring

theorem length_headMul (l : List K) (x : K) :
    (scaleHead x l).length = l.length := by
  cases l <;> rfl

theorem DM.asProduct_spec (hs : SortsByModulus srt) {s : DM K Cd Co T} {n : ℕ} {g : ℕ → ℕ → K} (h : IsInvOf s.inv n g) :
    ∃ l, s.determinantAsProduct lu srt = .ok l ∧ (n = 0 → l = [1]) ∧ l.length = max 1 n ∧
      (l.Pairwise fun a b => ‖a‖ ≤ ‖b‖) ∧ (0 < n → l.prod = s.computeDeterminant) := by
  unfold DM.determinantAsProduct
  rw [h.1]
  by_cases hn : n = 0
  · subst hn
    exact ⟨[1], by rw [if_pos rfl], fun _ => rfl, rfl, by simp, fun h => absurd h (lt_irrefl 0)⟩
  · have hp : 0 < n := Nat.pos_of_ne_zero hn
    rw [if_neg hn]
    obtain ⟨l, e, hl, hlen⟩ := luProduct_spec (lu n (toM n n s.inv.val)) hp
    have hdet : (toM n n s.inv.val).det ≠ 0 := by
      intro h0
      have := congrArg Matrix.det h.2.2
      rw [Matrix.det_mul, h0, zero_mul, Matrix.det_one] at this
      exact zero_ne_one this
    have hne : ∀ x ∈ l, x ≠ 0 := by
      intro x hx h0
      subst h0
      exact hdet (by rw [← hl]; exact List.prod_eq_zero hx)
    have hl0 : l.map (fun x => 1 / x) ≠ [] := by
      intro e
      rw [List.map_eq_nil_iff] at e
      rw [e] at hlen
      simp at hlen; omega
    rw [e, Res.bind_ok, Res.assert_true hne, Res.bind_ok]
    refine ⟨_, rfl, fun e => absurd e hn, ?_, hs.sorted _, fun _ => ?_⟩
    · rw [(hs.perm _).length_eq, length_headMul, List.length_map, hlen]; omega
    · rw [(hs.perm _).prod_eq, prod_headMul _ hl0]
      unfold DM.computeDeterminant
      have e2 : s.inv.det = l.prod := by rw [DMat.det_eq h.1, hl]; rfl
      rw [e2, div_eq_mul_inv]
      congr 1
      clear * -
      induction l with
      | nil => simp
      | cons x l ih => rw [List.map_cons, List.prod_cons, ih, List.prod_cons, mul_inv, one_div]

theorem asProduct_foldl (hs : SortsByModulus srt) {mats : List (DM K Cd Co T)} {n : DM K Cd Co T → ℕ}
    (h : ∀ m ∈ mats, ∃ l, m.determinantAsProduct lu srt = .ok l ∧ l.length = max 1 (n m) ∧ l.prod = m.computeDeterminant)
    (r : List K) :
    ∃ l, Res.foldl (fun r m => do
        let vec ← DM.determinantAsProduct lu srt m
        pure (r ++ vec)) r mats = .ok (r ++ l) ∧ l.prod = (mats.map DM.computeDeterminant).prod ∧
      l.length = (mats.map fun m => max 1 (n m)).sum := by
  induction mats generalizing r with
  | nil => exact ⟨[], by simp [Res.foldl_nil], by simp, by simp⟩
  | cons m mats ih =>
    obtain ⟨v, e, h1, h2⟩ := h m (by simp)
    obtain ⟨l, e2, h3, h4⟩ := ih (fun m hm => h m (by simp [hm])) (r ++ v)
    refine ⟨v ++ l, ?_, ?_, ?_⟩
    · rw [Res.foldl_cons, e, Res.bind_ok, Res.pure_eq, Res.bind_ok, e2, List.append_assoc]
    · rw [List.prod_append, h2, h3, List.map_cons, List.prod_cons]
    · rw [List.length_append, h1, h4, List.map_cons, List.sum_cons]

/-! ### Decompositions exist -/

/-- The decomposition with one more row and column. -/
theorem exists_lu (n : ℕ) (A : Matrix (Fin n) (Fin n) K) : Nonempty (FullPivLU n A) := by
  induction n with
  | zero => exact ⟨⟨1, 1, A, by ext i; exact i.elim0⟩⟩
  | succ n ih =>
    by_cases hA : A = 0
    · refine ⟨⟨1, 1, 0, ?_⟩⟩
      subst hA
      have : luUpper (0 : Matrix (Fin (n + 1)) (Fin (n + 1)) K) = 0 := by
        ext k j; unfold luUpper; split <;> rfl
      rw [this, Matrix.mul_zero]
      rfl
    · obtain ⟨i, j, hij⟩ : ∃ i j, A i j ≠ 0 := by
        by_contra h
        push_neg at h
        exact hA (by ext i j; exact h i j)
      set B := A.submatrix (Equiv.swap 0 i) (Equiv.swap 0 j) with hB
      have hB0 : B 0 0 ≠ 0 := by rw [hB]; simpa using hij
      obtain ⟨d⟩ := ih fun a b => B a.succ b.succ - B a.succ 0 * B 0 b.succ / B 0 0
      let ext : Equiv.Perm (Fin n) → Equiv.Perm (Fin (n + 1)) := fun σ => Equiv.Perm.decomposeFin.symm (0, σ)
      have x0 : ∀ σ, ext σ 0 = 0 := fun σ => by simp [ext]
      have xs : ∀ σ (a : Fin n), ext σ a.succ = (σ a).succ := fun σ a => by simp [ext]
      let M : Matrix (Fin (n + 1)) (Fin (n + 1)) K := fun a b =>
        Fin.cases (Fin.cases (B 0 0) (fun b => B 0 (d.q b).succ) b)
          (fun a => Fin.cases (B (d.p a).succ 0 / B 0 0) (fun b => d.lu a b) b) a
      refine ⟨⟨(ext d.p).trans (Equiv.swap 0 i), (ext d.q).trans (Equiv.swap 0 j), M, ?_⟩⟩
      have key : ∀ a b, A.submatrix ((ext d.p).trans (Equiv.swap 0 i)) ((ext d.q).trans (Equiv.swap 0 j)) a b =
          B (ext d.p a) (ext d.q b) := fun a b => rfl
      have hd : ∀ a b, B (d.p a).succ (d.q b).succ - B (d.p a).succ 0 * B 0 (d.q b).succ / B 0 0 =
          ∑ k, luLower d.lu a k * luUpper d.lu k b := by
        intro a b
        have := congrFun (congrFun d.eq a) b
        rw [Matrix.mul_apply] at this
        exact this
      have l00 : luLower M 0 0 = 1 := by simp [luLower]
      have l0s : ∀ k : Fin n, luLower M 0 k.succ = 0 := fun k => by
        simp [luLower, Fin.succ_ne_zero]
      have ls0 : ∀ a : Fin n, luLower M a.succ 0 = B (d.p a).succ 0 / B 0 0 := fun a => by
        simp [luLower, M, Fin.succ_pos]
      have lss : ∀ a k : Fin n, luLower M a.succ k.succ = luLower d.lu a k := fun a k => by
        simp [luLower, M, Fin.succ_lt_succ_iff]
      have u0 : ∀ b, luUpper M 0 b = M 0 b := fun b => by simp [luUpper]
      have us0 : ∀ k : Fin n, luUpper M k.succ 0 = 0 := fun k => by
        simp [luUpper, Fin.succ_ne_zero]
      have uss : ∀ k b : Fin n, luUpper M k.succ b.succ = luUpper d.lu k b := fun k b => by
        simp [luUpper, M, Fin.succ_le_succ_iff]
      ext a b
      rw [key, Matrix.mul_apply, Fin.sum_univ_succ, u0]
      refine Fin.cases ?_ (fun a => ?_) a
      · rw [x0, l00, one_mul]
        simp only [l0s, zero_mul, Finset.sum_const_zero, add_zero]
        refine Fin.cases ?_ (fun b => ?_) b
        · rw [x0]; rfl
        · rw [xs]; rfl
      · rw [xs, ls0]
        simp only [lss]
        refine Fin.cases ?_ (fun b => ?_) b
        · rw [x0]
          simp only [us0, mul_zero, Finset.sum_const_zero, add_zero]
          show _ = _ / B 0 0 * B 0 0
          rw [div_mul_cancel₀ _ hB0]
        · rw [xs]
          simp only [uss]
          rw [← hd]
          show _ = _ / B 0 0 * B 0 (d.q b).succ + _
          ring

end CTInt
