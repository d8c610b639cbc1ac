import Verif.Model.Safe
import Verif.Proofs.Replace

/-!
# Property C18 : the overflow-safe determinant and inverse are the determinant and the inverse
-/

set_option linter.all false

open Matrix

namespace CTInt

variable {𝕜 : Type} [RCLike 𝕜]

theorem maxAbs_eq_zero {A : DMat 𝕜} :
    maxAbs A = 0 ↔ ∀ i < A.rows, ∀ j < A.cols, A.val i j = 0 := by
  unfold maxAbs
  rw [← bot_eq_zero, Finset.sup_eq_bot_iff]
  simp only [Finset.mem_product, Finset.mem_range, bot_eq_zero, nnnorm_eq_zero]
  exact ⟨fun h i hi j hj => h (i, j) ⟨hi, hj⟩, fun h p hp => h _ hp.1 _ hp.2⟩

theorem scaled_mat (A : DMat 𝕜) (c : 𝕜) (n m : ℕ) : (scaled A c).mat n m = c⁻¹ • A.mat n m := by
  ext i j
  simp [scaled, DMat.mat, div_eq_inv_mul]

/-- C18: the scaled determinant is the determinant, for every square matrix, singular or not, empty or not. -/
theorem C18_safeDet {n : ℕ} {A : DMat 𝕜} (hr : A.rows = n) (hc : A.cols = n) :
    safeDet A = .ok (detN n A.val) := by
  unfold safeDet
  simp only [hr, hc, Res.assert_true trivial, Res.bind_ok, Res.pure_eq]
  by_cases hn : n = 0
  · subst hn; simp [detN]
  · rw [if_neg hn]
    by_cases hm : maxAbs A = 0
    · rw [if_pos hm]
      have h0 : toM n n A.val = 0 := by
        ext i j
        rw [maxAbs_eq_zero, hr, hc] at hm
        simpa using hm i i.2 j j.2
      have : Nonempty (Fin n) := ⟨⟨0, Nat.pos_of_ne_zero hn⟩⟩
      rw [detN, h0, Matrix.det_zero]
    · rw [if_neg hm]
      congr 1
      have hc0 : (((maxAbs A : NNReal) : ℝ) : 𝕜) ≠ 0 := by exact_mod_cast hm
      rw [DMat.det_eq (n := n) (by simpa [scaled] using hr), scaled_mat, Matrix.det_smul, Fintype.card_fin,
        Real.rpow_natCast]
      push_cast
      rw [inv_pow, mul_right_comm, inv_mul_cancel₀ (pow_ne_zero _ hc0), one_mul]
      rfl

/-- C18: the scaled inverse is the inverse, for every invertible matrix that is not empty. -/
theorem C18_safeInv {n : ℕ} {A : DMat 𝕜} (hn : 0 < n) (hr : A.rows = n) (hc : A.cols = n)
    (h : detN n A.val ≠ 0) : ∃ Y, safeInv A = .ok Y ∧ IsInvOf Y n A.val := by
  unfold safeInv
  have hm : maxAbs A ≠ 0 := by
    intro h0
    apply h
    have h0 : toM n n A.val = 0 := by
        ext i j
        rw [maxAbs_eq_zero, hr, hc] at h0
        simpa using h0 i i.2 j j.2
    have : Nonempty (Fin n) := ⟨⟨0, hn⟩⟩
    rw [detN, h0, Matrix.det_zero]
  simp only [hr, hc, hn, and_self, Res.assert_true trivial, Res.bind_ok, Res.pure_eq, if_neg hm]
  refine ⟨_, rfl, by simp [scaled, hr], by simp [scaled, hc], ?_⟩
  have hc0 : (((maxAbs A : NNReal) : ℝ) : 𝕜) ≠ 0 := by exact_mod_cast hm
  show (scaled _ _).mat n n * _ = 1
  have hu : IsUnit (A.mat n n).det := isUnit_iff_ne_zero.mpr h
  rw [scaled_mat, DMat.mat_inv (by simpa [scaled] using hr), scaled_mat]
  have : ((((maxAbs A : NNReal) : ℝ) : 𝕜)⁻¹ • A.mat n n)⁻¹ = ((maxAbs A : NNReal) : ℝ) • (A.mat n n)⁻¹ := by
    apply Matrix.inv_eq_left_inv
    rw [Matrix.smul_mul, Matrix.mul_smul, Matrix.nonsing_inv_mul _ hu]
    ext i j
    simp only [Matrix.smul_apply, smul_eq_mul, RCLike.real_smul_eq_coe_mul]
    rw [← mul_assoc, mul_inv_cancel₀ hc0, one_mul]
  rw [this]
  have e : toM n n A.val = A.mat n n := rfl
  rw [e, Matrix.smul_mul, Matrix.smul_mul, Matrix.nonsing_inv_mul _ hu]
  ext i j
  simp only [Matrix.smul_apply, smul_eq_mul, RCLike.real_smul_eq_coe_mul]
  rw [← mul_assoc, inv_mul_cancel₀ hc0, one_mul]

/-- C18: the member functions `determinant` and `safe_determinant` (with their special cases for sizes up
    to two) return the determinant. -/
theorem C18_determinant_members {n : ℕ} {A : DMat 𝕜} (hr : A.rows = n) (hc : A.cols = n) :
    rmDet A = .ok (detN n A.val) ∧ rmSafeDet A = .ok (detN n A.val) := by
  have e0 : n = 0 → (1 : 𝕜) = detN n A.val := by rintro rfl; simp [detN]
  have e1 : n = 1 → A.val 0 0 = detN n A.val := by rintro rfl; simp [detN]
  have e2 : n = 2 → A.val 0 0 * A.val 1 1 - A.val 0 1 * A.val 1 0 = detN n A.val := by
    rintro rfl; simp [detN, Matrix.det_fin_two]
  have hd : A.det = detN n A.val := by subst hr; rfl
  constructor
  · unfold rmDet
    simp only [hr, hc, Res.assert_true trivial, Res.bind_ok, Res.pure_eq]
    split_ifs with h0 h1 h2
    · rw [← e0 h0]
    · rw [← e1 h1]
    · rw [← e2 h2]
    · rw [hd]
  · unfold rmSafeDet
    simp only [hr, hc, Res.assert_true trivial, Res.bind_ok, Res.pure_eq]
    split_ifs with h0 h1 h2
    · rw [← e0 h0]
    · rw [← e1 h1]
    · rw [← e2 h2]
    · exact C18_safeDet hr hc

/-- C18: `invert` replaces an invertible matrix, empty or not, by its inverse. -/
theorem C18_invert {n : ℕ} {A : DMat 𝕜} (hr : A.rows = n) (hc : A.cols = n) (h : detN n A.val ≠ 0) :
    ∃ Y, rmInvert A = .ok Y ∧ IsInvOf Y n A.val := by
  unfold rmInvert
  simp only [hr, hc, Res.assert_true trivial, Res.bind_ok, Res.pure_eq]
  by_cases hn : 0 < n
  · rw [if_pos (Nat.mul_pos hn hn)]
    exact C18_safeInv hn hr hc h
  · have : n = 0 := by omega
    subst this
    exact ⟨A, rfl, hr, hc, toM_zero_mul_eq_one _ _⟩

/-- Non-vacuity for C18: a matrix with entries 0 and 3 (the scale is 3, not 1). -/
example : ∃ A : DMat ℝ, A.rows = 2 ∧ A.cols = 2 ∧ detN 2 A.val = 9 ∧ maxAbs A ≠ 0 := by
  refine ⟨⟨2, 2, fun i j => if i = j then 3 else 0⟩, rfl, rfl, ?_, ?_⟩
  · simp [detN, Matrix.det_fin_two]; norm_num
  · rw [Ne, maxAbs_eq_zero]
    intro h
    have := h 0 (by norm_num) 0 (by norm_num)
    simp at this

end CTInt
