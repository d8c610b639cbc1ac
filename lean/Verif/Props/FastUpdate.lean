import Verif.Proofs.FastUpdate

/-!
# Properties C11, C12 : growing and shrinking a matrix

`g : ℕ → ℕ → K` lists the entries of the enlarged matrix; its leading `N × N` part is the old matrix,
`detN n g` is the determinant of the leading `n × n` part (`Verif.Spec.Inverse`), and
`UpBlocks N M g B C D` says that `B`, `C`, `D` hold the other three blocks of `g`.
-/

set_option linter.all false

open Matrix

namespace CTInt

variable {K : Type} [Field K]

/-- C11 (library in include/): the value returned when rows and columns are added is
    det(new)/det(old), also for an empty old matrix. -/
theorem C11_inc_detRatioUp {N M : ℕ} {g : ℕ → ℕ → K} {B C D X : DMat K}
    (hM : 0 < M) (hb : UpBlocks N M g B C D) (hX : IsInvOf X N g) :
    Inc.detRatioUp B C D X = .ok (detN (N + M) g / detN N g) := by
  obtain ⟨hr, hc, _⟩ := id hX
  unfold Inc.detRatioUp
  simp only [hb.Dr, hr, hc, hb.Br, hb.Bc, hb.Cr, hb.Cc, hb.Dc, and_self, Res.assert, if_true,
    hM, Res.bind_ok, Res.pure_eq]
  by_cases hN : N = 0
  · subst hN
    rw [if_pos rfl, detN_up_zero hb]
  · rw [if_neg hN, detN_up hb hX]

/-- C11 (library in include/): the in-place updated matrix is the inverse of the enlarged matrix and
    the returned value is det(new)/det(old). -/
theorem C11_inc_inverseUp {N M : ℕ} {g : ℕ → ℕ → K} {B C D X : DMat K} (junk : ℕ → ℕ → K)
    (hM : 0 < M) (hb : UpBlocks N M g B C D) (hX : IsInvOf X N g) (h : detN (N + M) g ≠ 0) :
    ∃ Y, Inc.inverseUp junk B C D X = .ok (detN (N + M) g / detN N g, Y) ∧
      IsInvOf Y (N + M) g := by
  obtain ⟨hr, hc, _⟩ := id hX
  unfold Inc.inverseUp
  simp only [hb.Dr, hr, hc, hb.Br, hb.Bc, hb.Cr, hb.Cc, hb.Dc, and_self, Res.assert, if_true,
    hM, Res.bind_ok, Res.pure_eq]
  by_cases hN : N = 0
  · subst hN
    rw [if_pos rfl, detN_up_zero hb]
    exact ⟨_, rfl, isInvOf_zero_up hb h⟩
  · rw [if_neg hN, one_div_det_inv, detN_up hb hX]
    refine ⟨_, rfl, up_assemble hb hX h rfl rfl rfl rfl rfl rfl ?_ ?_ ?_ ?_ ?_ ?_⟩
    · simp
    · simp
    · intro i hi j hj
      rw [DMat.setBlock_out (by simp [hb.Dr, hr] <;> omega),
        DMat.setBlock_out (by simp [hb.Dr, hr] <;> omega), DMat.setBlock_in (by simp <;> omega)]
      simp only [DMat.sub_val, DMat.block_val, Nat.sub_zero, Nat.zero_add]
      rw [DMat.setBlock_out (by simp <;> omega), DMat.conservativeResize_val (by omega)]
      congr 1
      refine DMat.mul_val_congr rfl (fun _ _ => rfl) fun k hk => ?_
      have hk' : k < M := by simpa [hb.Bc] using hk
      rw [DMat.block_val, DMat.setBlock_in (by simp [hb.Dr, hr, hc] <;> omega)]
      simp
    · intro i hi j hj
      rw [DMat.setBlock_out (by simp [hb.Dr, hr] <;> omega),
        DMat.setBlock_in (by simp [hb.Dc, hr, hc] <;> omega)]
      simp
    · intro i hi j hj
      rw [DMat.setBlock_out (by simp [hb.Dr, hr] <;> omega),
        DMat.setBlock_out (by simp [hb.Dr, hr] <;> omega),
        DMat.setBlock_out (by simp <;> omega), DMat.setBlock_in (by simp [hb.Dr, hc] <;> omega)]
      simp
    · intro i hi j hj
      rw [DMat.setBlock_in (by simp [hb.Dr, hb.Dc] <;> omega)]
      simp

/-- C11 (library in src/): value of the determinant ratio. -/
theorem C11_src_detRatioUp {N M : ℕ} {g : ℕ → ℕ → K} {B C D X : DMat K}
    (hM : 0 < M) (hb : UpBlocks N M g B C D) (hX : IsInvOf X N g) :
    Src.detRatioUp B C D X = .ok (detN (N + M) g / detN N g) := by
  obtain ⟨hr, hc, _⟩ := id hX
  unfold Src.detRatioUp
  simp only [hb.Dr, hr, hc, hb.Br, hb.Bc, hb.Cr, hb.Cc, hb.Dc, and_self, Res.assert, if_true,
    hM, Res.bind_ok, Res.pure_eq]
  by_cases hN : N = 0
  · subst hN
    rw [if_pos rfl, detN_up_zero hb]
  · rw [if_neg hN, detN_up hb hX]

/-- C11 (library in src/): the enlarged inverse written by `compute_inverse_matrix_up2`. -/
theorem C11_src_inverseUp2 {N M : ℕ} {g : ℕ → ℕ → K} {B C D X : DMat K} (junk : ℕ → ℕ → K)
    (hM : 0 < M) (hb : UpBlocks N M g B C D) (hX : IsInvOf X N g) (h : detN (N + M) g ≠ 0) :
    ∃ Y, Src.inverseUp2 junk B C D X = .ok (detN (N + M) g / detN N g, Y) ∧
      IsInvOf Y (N + M) g := by
  obtain ⟨hr, hc, _⟩ := id hX
  unfold Src.inverseUp2
  simp only [hb.Dr, hr, hc, hb.Br, hb.Bc, hb.Cr, hb.Cc, hb.Dc, and_self, Res.assert, if_true,
    hM, Res.bind_ok, Res.pure_eq]
  by_cases hN : N = 0
  · subst hN
    rw [if_pos rfl, detN_up_zero hb]
    exact ⟨_, rfl, isInvOf_zero_up hb h⟩
  · rw [if_neg hN, one_div_det_inv, detN_up hb hX]
    refine ⟨_, rfl, up_assemble hb hX h rfl rfl rfl rfl rfl rfl ?_ ?_ ?_ ?_ ?_ ?_⟩
    · simp
    · simp
    · intro i hi j hj
      rw [DMat.setBlock_out (by simp [hb.Dr, hr] <;> omega),
        DMat.setBlock_out (by simp [hb.Dr, hr] <;> omega),
        DMat.setBlock_in (by simp [hr, hc] <;> omega)]
      simp only [DMat.sub_val, Nat.sub_zero, Nat.zero_add]
      congr 1
      refine DMat.mul_val_congr rfl (fun _ _ => rfl) fun k hk => ?_
      have hk' : k < M := by simpa [hb.Bc] using hk
      rw [DMat.block_val, DMat.setBlock_in (by simp [hb.Dr, hr, hc] <;> omega)]
      simp
    · intro i hi j hj
      rw [DMat.setBlock_in (by simp [hb.Dc, hr, hc] <;> omega)]
      simp
    · intro i hi j hj
      rw [DMat.setBlock_out (by simp [hb.Dr, hr] <;> omega),
        DMat.setBlock_out (by simp [hb.Dr, hr] <;> omega),
        DMat.setBlock_out (by simp [hr, hc] <;> omega),
        DMat.setBlock_in (by simp [hb.Dr, hc] <;> omega)]
      simp
    · intro i hi j hj
      rw [DMat.setBlock_out (by simp [hb.Dr, hr] <;> omega),
        DMat.setBlock_in (by simp [hb.Dr, hb.Dc] <;> omega)]
      simp

/-- C11 (library in src/): the blocks `E, F, G, H` written by `compute_inverse_matrix_up` are the four
    blocks of the inverse of the enlarged matrix. -/
theorem C11_src_inverseUpBlocks {N M : ℕ} {g : ℕ → ℕ → K} {B C D X : DMat K} (junk : ℕ → ℕ → K)
    (hM : 0 < M) (hb : UpBlocks N M g B C D) (hX : IsInvOf X N g) (h : detN (N + M) g ≠ 0) :
    ∃ E F G H, Src.inverseUpBlocks junk B C D X = .ok (detN (N + M) g / detN N g, E, F, G, H) ∧
      fromBlocks (E.mat N N) (F.mat N M) (G.mat M N) (H.mat M M) *
        fromBlocks (toM N N g) (toM N M fun i j => g i (N + j))
          (toM M N fun i j => g (N + i) j) (toM M M fun i j => g (N + i) (N + j)) = 1 := by
  obtain ⟨hr, hc, _⟩ := id hX
  unfold Src.inverseUpBlocks
  simp only [hb.Dr, hr, hc, hb.Br, hb.Bc, hb.Cr, hb.Cc, hb.Dc, and_self, Res.assert, if_true,
    hM, Res.bind_ok, Res.pure_eq]
  by_cases hN : N = 0
  · subst hN
    rw [if_pos rfl, one_div_det_inv, detN_up_zero hb]
    refine ⟨_, _, _, _, rfl, ?_⟩
    have hd := isInvOf_zero_up hb h
    have := (isInvOf_add.mp hd).2.2
    convert this using 3 with i j i j
    all_goals (ext i j; first | exact i.elim0 | exact j.elim0 | simp [DMat.mat])
  · rw [if_neg hN, one_div_det_inv, detN_up hb hX]
    refine ⟨_, _, _, _, rfl, ?_⟩
    have hHm := up_H hb hX h
    have e := inverse_up hX.2.2 hHm
    have hXB : (X.mul B).mat N M = toM N N X.val * (toM N M fun i j => g i (N + j)) := by
      rw [DMat.mat_mul hX.2.1, hb.matB]; rfl
    have hCX : (C.mul X).mat M N = (toM M N fun i j => g (N + i) j) * toM N N X.val := by
      rw [DMat.mat_mul hb.Cc, hb.matC]; rfl
    generalize hHd : (D.sub ((C.mul X).mul B)).inv = H at e ⊢
    have hHc : H.cols = M := by rw [← hHd]; simp [hb.Dc]
    have hBc : (X.mul B).cols = M := by simp [hb.Bc]
    have hG : (H.mul (C.mul X)).neg.mat M N = -(H.mat M M *
        ((toM M N fun i j => g (N + i) j) * toM N N X.val)) := by
      rw [DMat.mat_neg, DMat.mat_mul hHc, hCX]
    have hF : ((X.mul B).mul H).neg.mat N M =
        -(toM N N X.val * (toM N M fun i j => g i (N + j)) * H.mat M M) := by
      rw [DMat.mat_neg, DMat.mat_mul hBc, hXB]
    have hE : (((X.mul B).mul (H.mul (C.mul X)).neg).neg.add X).mat N N =
        toM N N X.val + toM N N X.val * (toM N M fun i j => g i (N + j)) * H.mat M M *
            ((toM M N fun i j => g (N + i) j) * toM N N X.val) := by
      rw [DMat.mat_add, DMat.mat_neg, DMat.mat_mul hBc, hG, hXB, Matrix.mul_neg, neg_neg, add_comm]
      simp only [Matrix.mul_assoc]; rfl
    rw [hG, hF, hE]
    exact e

/-- Non-vacuity for C11: a 1 × 1 matrix grown by one row and column. -/
example : ∃ (g : ℕ → ℕ → ℚ) (B C D X : DMat ℚ), UpBlocks 1 1 g B C D ∧ IsInvOf X 1 g ∧
    detN (1 + 1) g ≠ 0 ∧ g 0 1 ≠ 0 ∧ g 1 0 ≠ 0 := by
  refine ⟨fun i j => if i = j then 2 else 1, ⟨1, 1, fun _ _ => 1⟩, ⟨1, 1, fun _ _ => 1⟩,
    ⟨1, 1, fun _ _ => 2⟩, ⟨1, 1, fun _ _ => 1 / 2⟩, ?_, ?_, ?_, by norm_num, by norm_num⟩
  · constructor <;> intros <;> simp <;> omega
  · refine ⟨rfl, rfl, ?_⟩
    ext i j
    fin_cases i; fin_cases j
    simp [Matrix.mul_apply]
  · simp [detN, Matrix.det_fin_two]; norm_num

/-- C12 (library in include/): ratio for removing the last rows and columns, for every invertible
    matrix (the ratio is 0 if the remaining matrix is singular). -/
theorem C12_inc_detRatioDownLast {N M : ℕ} {g : ℕ → ℕ → K} {X : DMat K} (hM : 0 < M)
    (hX : IsInvOf X (N + M) g) :
    Inc.detRatioDownLast M X = .ok (detN N g / detN (N + M) g) := by
  obtain ⟨hr, hc, _⟩ := id hX
  unfold Inc.detRatioDownLast
  rw [← detN_down hX]
  simp [hr, hc, hM, Res.assert]

/-- C12 (library in include/): the shrunk matrix is the inverse of the remaining matrix, also when
    nothing remains. -/
theorem C12_inc_inverseDownLast {N M : ℕ} {g : ℕ → ℕ → K} {X : DMat K} (junk : ℕ → ℕ → K)
    (hM : 0 < M) (hX : IsInvOf X (N + M) g) (h : detN N g ≠ 0) :
    ∃ Y, Inc.inverseDownLast junk M X = .ok Y ∧ IsInvOf Y N g := by
  obtain ⟨hr, hc, _⟩ := id hX
  have e1 : N + M - M = N := by omega
  have e2 : ¬ (N + M < M) := by omega
  have e3 : ¬ (M = 0) := by omega
  unfold Inc.inverseDownLast
  simp only [hr, hc, e1, Res.assert, if_true, Res.bind_ok, Res.throwIf_false e2,
    Res.throwIf_false e3, Res.pure_eq]
  refine ⟨_, rfl, ?_⟩
  by_cases hN : 0 < N
  · rw [if_pos hN]
    refine down_inverse hX h rfl rfl fun i hi j hj => ?_
    rw [DMat.conservativeResize_val (by simp [hr, hc] <;> omega),
      DMat.setBlock_in (by simp <;> omega)]
    simp [DMat.sub_val, DMat.block_val]
  · have : N = 0 := by omega
    subst this
    exact ⟨rfl, rfl, toM_zero_mul_eq_one _ _⟩

/-- C12: asking for more rows than there are, or for none, is refused with `logic_error`. -/
theorem C12_inc_inverseDownLast_refuses {M : ℕ} {X : DMat K} (junk : ℕ → ℕ → K)
    (hsq : X.cols = X.rows) (h : X.rows < M ∨ M = 0) :
    Inc.inverseDownLast junk M X = .throw .logicError := by
  unfold Inc.inverseDownLast
  simp only [hsq, Res.assert, if_true, Res.bind_ok]
  by_cases h1 : X.rows < M
  · rw [Res.throwIf_true h1]; rfl
  · rw [Res.throwIf_false h1, Res.throwIf_true (by omega)]; rfl

/-- Non-vacuity for C12. -/
example : ∃ (g : ℕ → ℕ → ℚ) (X : DMat ℚ), IsInvOf X (1 + 1) g ∧ detN 1 g ≠ 0 := by
  refine ⟨fun i j => if i = j then 2 else 1,
    ⟨2, 2, fun i j => if i = j then 2 / 3 else - 1 / 3⟩, ⟨rfl, rfl, ?_⟩, ?_⟩
  · ext i j
    fin_cases i <;> fin_cases j <;> simp [Matrix.mul_apply, Fin.sum_univ_two] <;> norm_num
  · simp [detN]

end CTInt
