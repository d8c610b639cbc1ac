import Verif.Proofs.Replace
import Verif.Spec.Replace

/-!
# Properties C15, C16, C17 : replacing rows and columns, one row, one column, diagonal elements
-/

set_option linter.all false

open Matrix

namespace CTInt

variable {K : Type} [Field K]

/-! ### C15 -/

/-- C15 (include/ `ReplaceHelper`): the last `Mo` rows and columns of `gold` are replaced by `M` new ones
    (`g`), `X` being the inverse of `gold`.  If the common leading block is invertible, the value is
    det(new)/det(old), and the matrix written afterwards is the inverse of the new one. -/
theorem C15_inc_replace_partial [DecidableEq K] {N Mo M : ℕ} {g gold : ℕ → ℕ → K} {X Q R S : DMat K}
    (junk : ℕ → ℕ → K) (w1 w2 : DMat K)
    (hX : IsInvOf X (N + Mo) gold) (hg : ∀ i < N, ∀ j < N, g i j = gold i j)
    (hb : UpBlocks N M g Q R S) (h : detN N gold ≠ 0) :
    ∃ h0 h1, Inc.Replace.mk' X Q R S w1 w2 = .ok h0 ∧
      h0.detRatio X Q R S = .ok (detN (N + M) g / detN (N + Mo) gold, h1) ∧
      (detN (N + M) g ≠ 0 → IsInvOf (h1.inverse junk Q R S) (N + M) g) := by
  have e0 : N + Mo - N = Mo := by omega
  have hmk : Inc.Replace.mk' X Q R S w1 w2 = .ok ⟨N, M, Mo, w1, w2⟩ := by
    unfold Inc.Replace.mk'
    simp only [hX.1, hX.2.1, hb.Cc, hb.Cr, hb.Br, hb.Bc, hb.Dr, hb.Dc, Res.assert_true trivial, e0,
      Res.assert_true (show N ≤ N + Mo by omega), and_self, Res.bind_ok, Res.pure_eq]
  by_cases hN : N = 0
  · subst hN
    refine ⟨⟨0, M, Mo, w1, w2⟩, ⟨0, M, Mo, w1, w2⟩, hmk, ?_, ?_⟩
    · unfold Inc.Replace.detRatio
      simp only [if_true, Res.pure_eq]
      rw [hX.det_mul, detN_up_zero hb]
      have : detN 0 g = 1 := by simp [detN]
      rw [this, div_one, mul_one_div]
    · intro h'
      unfold Inc.Replace.inverse
      simp only [if_true]
      have hi := isInvOf_zero_up hb h'
      by_cases hM : 0 < M
      · rw [if_pos hM]
        refine hi.congr_left (by simp) (by simp) fun i hi j hj => ?_
        rw [DMat.setBlock_in (by simp [hb.Dr, hb.Dc] <;> omega)]; simp
      · rw [if_neg hM]
        have : M = 0 := by omega
        subst this
        exact ⟨rfl, rfl, toM_zero_mul_eq_one _ _⟩
  · have htS : (X.block N N Mo Mo).det ≠ 0 := by
      rw [detN_down hX]; exact div_ne_zero h hX.det_ne_zero
    let Mm : DMat K := if 0 < Mo then (X.block 0 0 N N).sub
        (((X.block 0 N N Mo).mul (X.block N N Mo Mo).inv).mul (X.block N 0 Mo N)) else X.block 0 0 N N
    have hMr : Mm.rows = N := by simp only [Mm]; split_ifs <;> rfl
    have hMc : Mm.cols = N := by simp only [Mm]; split_ifs <;> rfl
    have hMm : IsInvOf Mm N g := by
      refine replace_mid hX hg h hMr hMc fun i hi j hj => ?_
      simp only [Mm]
      split_ifs with hMo
      · simp [DMat.sub_val, DMat.block_val]
      · have : Mo = 0 := by omega
        subst this
        simp [DMat.mul_val, DMat.block_val]
    refine ⟨⟨N, M, Mo, w1, w2⟩, ⟨N, M, Mo, Mm, S.sub (R.mul (Mm.mul Q))⟩, hmk, ?_, ?_⟩
    · unfold Inc.Replace.detRatio
      simp only [if_neg hN, if_neg htS, Res.pure_eq]
      rw [← replace_ratio hX hg h hb hMm]
    · intro h'
      unfold Inc.Replace.inverse
      simp only [if_neg hN]
      by_cases hM : 0 < M
      · simp only [if_pos hM]
        have hSr : (S.sub (R.mul (Mm.mul Q))).inv.rows = M := by simp [hb.Dr]
        have hSc : (S.sub (R.mul (Mm.mul Q))).inv.cols = M := by simp [hb.Dc]
        generalize hS : (S.sub (R.mul (Mm.mul Q))).inv = T at hSr hSc ⊢
        generalize hY0 : DMat.destructiveResize junk (N + M) (N + M) = Y0
        have hY0r : Y0.rows = N + M := by rw [← hY0]; rfl
        have hY0c : Y0.cols = N + M := by rw [← hY0]; rfl
        generalize hF : Mm.neg.mul (Q.mul ((Y0.setBlock N N T).block N N M M)) = F
        have hFr : F.rows = N := by rw [← hF]; simp [hMr]
        have hFc : F.cols = M := by rw [← hF]; simp
        generalize hG : ((((Y0.setBlock N N T).setBlock 0 N F).block N N M M).mul R).neg.mul Mm = G
        have hGr : G.rows = M := by rw [← hG]; simp
        have hGc : G.cols = N := by rw [← hG]; simp [hMc]
        generalize hE : ((((((Y0.setBlock N N T).setBlock 0 N F).setBlock N 0 G).setBlock 0 0 Mm).block 0 0 N N).sub
          ((Mm.mul Q).mul (((((Y0.setBlock N N T).setBlock 0 N F).setBlock N 0 G).setBlock 0 0 Mm).block N 0 M N))) = E
        have hEr : E.rows = N := by rw [← hE]; simp
        have hEc : E.cols = N := by rw [← hE]; simp
        have hTm : T.mat M M = ((S.sub ((R.mul Mm).mul Q)).inv).mat M M := by
          rw [← hS, DMat.mul_assoc']
        have hFm : F.mat N M = -(Mm.mat N N * Q.mat N M * T.mat M M) := by
          rw [← hF, DMat.mat_mul (m := N) (by simp [hMc]), DMat.mat_mul hb.Bc, DMat.mat_neg,
            DMat.setBlock_block_same hSr hSc, Matrix.neg_mul, Matrix.mul_assoc]
        have hGm : G.mat M N = -(T.mat M M * (R.mat M N * Mm.mat N N)) := by
          rw [← hG, DMat.mat_mul (m := N) (by simp [hb.Cc]), DMat.mat_neg, DMat.mat_mul (m := M) rfl,
            DMat.setBlock_block_disj (by omega), DMat.setBlock_block_same hSr hSc, Matrix.neg_mul,
            Matrix.mul_assoc]
        have hEm : E.mat N N = Mm.mat N N - Mm.mat N N * Q.mat N M * G.mat M N := by
          rw [← hE, DMat.mat_sub, DMat.setBlock_block_same hMr hMc, DMat.mat_mul (m := M) (by simp [hb.Bc]),
            DMat.mat_mul hMc, DMat.setBlock_block_disj (by omega), DMat.setBlock_block_same hGr hGc]
        have k22 : ((((((Y0.setBlock N N T).setBlock 0 N F).setBlock N 0 G).setBlock 0 0 Mm).setBlock 0 0 E).block N N M M).mat M M = T.mat M M := by
          rw [DMat.setBlock_block_disj (by omega), DMat.setBlock_block_disj (by omega),
            DMat.setBlock_block_disj (by omega), DMat.setBlock_block_disj (by omega),
            DMat.setBlock_block_same hSr hSc]
        have k21 : ((((((Y0.setBlock N N T).setBlock 0 N F).setBlock N 0 G).setBlock 0 0 Mm).setBlock 0 0 E).block N 0 M N).mat M N = G.mat M N := by
          rw [DMat.setBlock_block_disj (by omega), DMat.setBlock_block_disj (by omega),
            DMat.setBlock_block_same hGr hGc]
        refine up_assemble_mat hb hMm h' (by simp [hY0r]) (by simp [hY0c]) ?_ ?_ ?_ ?_
        · rw [k22, hTm]
        · rw [k22, DMat.setBlock_block_disj (by omega), DMat.setBlock_block_disj (by omega),
            DMat.setBlock_block_disj (by omega), DMat.setBlock_block_same hFr hFc, hFm]
        · rw [k22, k21, hGm]
        · rw [k21, DMat.setBlock_block_same hEr hEc, hEm]
      · have : M = 0 := by omega
        subst this
        simp only [if_neg hM]
        refine hMm.congr_left (by simp) (by simp) fun i hi j hj => ?_
        rw [DMat.setBlock_in (by simp [hMr, hMc] <;> omega)]; simp

/-- C15, violation (include/ `ReplaceHelper`): the ratio is 1, yet 0 is returned, because the common leading
    block of an invertible matrix may be singular (the `FIX ME` at fastupdate_formula.ipp 297). -/
theorem C15_inc_replace_violation :
    ∃ (g gold : ℕ → ℕ → ℚ) (X Q R S : DMat ℚ) (h0 : Inc.Replace ℚ),
      IsInvOf X (1 + 1) gold ∧ (∀ i < 1, ∀ j < 1, g i j = gold i j) ∧ UpBlocks 1 1 g Q R S ∧
      detN (1 + 1) g / detN (1 + 1) gold = 1 ∧
      Inc.Replace.mk' X Q R S ⟨0, 0, fun _ _ => 0⟩ ⟨0, 0, fun _ _ => 0⟩ = .ok h0 ∧
      h0.detRatio X Q R S = .ok (0, h0) := by
  refine ⟨fun i j => if i = 0 ∧ j = 0 then 0 else 1, fun i j => if i = j then 0 else 1,
    ⟨2, 2, fun i j => if i = j then 0 else 1⟩, ⟨1, 1, fun _ _ => 1⟩, ⟨1, 1, fun _ _ => 1⟩,
    ⟨1, 1, fun _ _ => 1⟩, ⟨1, 1, 1, ⟨0, 0, fun _ _ => 0⟩, ⟨0, 0, fun _ _ => 0⟩⟩, ?_, ?_, ?_, ?_, ?_, ?_⟩
  · refine ⟨rfl, rfl, ?_⟩
    ext i j
    fin_cases i <;> fin_cases j <;> simp [Matrix.mul_apply, Fin.sum_univ_two]
  · intro i hi j hj
    have : i = 0 := by omega
    have : j = 0 := by omega
    simp [*]
  · constructor <;> intros <;> simp <;> omega
  · simp [detN, Matrix.det_fin_two]
  · simp [Inc.Replace.mk', Res.assert]
  · simp [Inc.Replace.detRatio, DMat.det, DMat.block]

/-- C15 (src/): determinant ratio of the replacement, and the work matrix `Mmat`, which is the inverse of
    the common leading block; needs that block to be invertible. -/
theorem C15_src_detRatioReplace_partial {N Mo M : ℕ} {g gold : ℕ → ℕ → K} {X Q R S : DMat K}
    (w1 w2 : DMat K)
    (hX : IsInvOf X (N + Mo) gold) (hg : ∀ i < N, ∀ j < N, g i j = gold i j)
    (hb : UpBlocks N M g Q R S) (h : detN N gold ≠ 0) :
    ∃ Mm T, Src.detRatioReplace X Q R S w1 w2 = .ok (detN (N + M) g / detN (N + Mo) gold, Mm, T) ∧
      (0 < N → IsInvOf Mm N gold ∧ T = S.sub (R.mul (Mm.mul Q))) := by
  have e0 : N + Mo - N = Mo := by omega
  unfold Src.detRatioReplace
  simp only [hX.1, hX.2.1, hb.Cc, hb.Cr, hb.Br, hb.Bc, hb.Dr, hb.Dc, Res.assert_true trivial, e0,
      Res.assert_true (show N ≤ N + Mo by omega), and_self, Res.bind_ok, Res.pure_eq]
  by_cases hN : N = 0
  · subst hN
    refine ⟨w1, w2, ?_, by omega⟩
    simp only [if_true]
    rw [hX.det_mul, detN_up_zero hb]
    have : detN 0 g = 1 := by simp [detN]
    rw [this, div_one, mul_one_div]
  · simp only [if_neg hN]
    have hMm : IsInvOf ((X.block 0 0 N N).sub ((X.block 0 N N Mo).mul
        ((X.block N N Mo Mo).inv.mul (X.block N 0 Mo N)))) N gold := by
      refine down_inverse hX h rfl rfl fun i hi j hj => ?_
      rw [DMat.mul_assoc', DMat.sub_val, DMat.block_val]; simp
    refine ⟨_, _, ?_, fun _ => ⟨hMm, rfl⟩⟩
    rw [replace_ratio hX hg h hb (hMm.congr fun i hi j hj => (hg i hi j hj).symm)]

/-- C15 (src/): the matrix update is correct when everything is replaced. -/
theorem C15_src_inverseReplace_partial {M : ℕ} {g : ℕ → ℕ → K} {X Q R S Mm T : DMat K}
    (junk : ℕ → ℕ → K) (hsq : X.cols = X.rows) (hb : UpBlocks 0 M g Q R S) (h : detN (0 + M) g ≠ 0) :
    ∃ Y, Src.inverseReplace junk X Q R S Mm T = .ok Y ∧ IsInvOf Y (0 + M) g := by
  unfold Src.inverseReplace
  simp only [hsq, hb.Cc, hb.Cr, hb.Br, hb.Bc, hb.Dr, hb.Dc, Res.assert_true trivial, and_self, if_true,
    DMat.assignBlock, Res.bind_ok, Res.pure_eq, DMat.block_rows, DMat.block_cols]
  rw [Res.assert_true (by simp)]
  simp only [Res.bind_ok]
  refine ⟨_, rfl, ?_⟩
  by_cases hM : 0 < M
  · rw [if_pos hM]
    have hi := isInvOf_zero_up hb h
    refine hi.congr_left (by simp) (by simp) fun i hi j hj => ?_
    have : toM M M ((DMat.destructiveResize junk M M).setBlock 0 0 (S.block 0 0 M M)).inv.val =
        toM M M S.inv.val := by
      have e1 := DMat.mat_inv (A := S) (n := M) hb.Dr
      have e2 := DMat.mat_inv (A := (DMat.destructiveResize junk M M).setBlock 0 0 (S.block 0 0 M M)) (n := M) rfl
      have e3 : DMat.mat ((DMat.destructiveResize junk M M).setBlock 0 0 (S.block 0 0 M M)) M M = S.mat M M := by
        refine toM_congr fun i hi j hj => ?_
        rw [DMat.setBlock_in (by simp <;> omega), DMat.block_val]; simp
      rw [e3, ← e1] at e2
      exact e2
    exact (toM_eq_iff.mp this i (by omega) j (by omega)).symm
  · rw [if_neg hM]
    have : M = 0 := by omega
    subst this
    exact ⟨rfl, rfl, toM_zero_mul_eq_one _ _⟩

/-- C15, violation (src/): whenever rows and columns are kept and their number differs from the number of
    new ones, the final block assignment (l. 808) has mismatching sizes. -/
theorem C15_src_inverseReplace_violation_size {N M : ℕ} {g : ℕ → ℕ → K} {X Q R S Mm T : DMat K}
    (junk : ℕ → ℕ → K) (hsq : X.cols = X.rows) (hb : UpBlocks N M g Q R S) (hN : 0 < N) (hNM : N ≠ M)
    (hm : Mm.rows = N ∧ Mm.cols = N) :
    Src.inverseReplace junk X Q R S Mm T = .ub := by
  have h1 : ¬ (N = 0) := by omega
  unfold Src.inverseReplace
  simp only [hsq, hb.Cc, hb.Cr, hb.Br, hb.Bc, hb.Dr, hb.Dc, Res.assert_true trivial, and_self, if_neg h1,
    Res.bind_ok, Res.pure_eq, DMat.assignBlock, hm.1, hm.2]
  have e : (if 0 < M then (T.block 0 0 M M).inv else T.block 0 0 M M).rows = M ∧
      (if 0 < M then (T.block 0 0 M M).inv else T.block 0 0 M M).cols = M := by
    split_ifs <;> simp
  simp [e, hm.1, hm.2, hb.Bc, hb.Cc, Res.assert, hNM]

/-- C15, violation (src/): also with equal sizes the result is not the inverse; here the new matrix is the
    2 × 2 identity and all arguments are exactly what the ratio function hands over. -/
theorem C15_src_inverseReplace_violation_value :
    ∃ (g : ℕ → ℕ → ℚ) (X Q R S Mm T : DMat ℚ), IsInvOf X (1 + 1) g ∧ UpBlocks 1 1 g Q R S ∧
      Src.detRatioReplace X Q R S Mm T = .ok (1, Mm, T) ∧
      ∀ junk, ∃ Y, Src.inverseReplace junk X Q R S Mm T = .ok Y ∧ ¬ IsInvOf Y (1 + 1) g := by
  have i1 : ∀ (f : ℕ → ℕ → ℚ), f 0 0 = 1 → (toM 1 1 f)⁻¹ = 1 := by
    intro f hf
    have : toM 1 1 f = 1 := by
      ext i j; fin_cases i; fin_cases j; simp [hf]
    rw [this]; simp
  have hone : ∀ f : ℕ → ℕ → ℚ, f 0 0 = 1 → (toM 1 1 f).det = 1 := by
    intro f hf; simp [hf]
  let X : DMat ℚ := ⟨2, 2, fun i j => if i = j then 1 else 0⟩
  let Q : DMat ℚ := ⟨1, 1, fun _ _ => 0⟩
  let S : DMat ℚ := ⟨1, 1, fun _ _ => 1⟩
  let Mm : DMat ℚ := (X.block 0 0 1 1).sub ((X.block 0 1 1 1).mul
        ((X.block 1 1 1 1).inv.mul (X.block 1 0 1 1)))
  let T : DMat ℚ := S.sub (Q.mul (Mm.mul Q))
  have hMm : Mm.val 0 0 = 1 := by simp [Mm, X, DMat.sub_val, DMat.mul_val, DMat.block_val]
  refine ⟨fun i j => if i = j then 1 else 0, X, Q, Q, S, Mm, T, ⟨rfl, rfl, ?_⟩, ?_, ?_, ?_⟩
  · ext i j
    fin_cases i <;> fin_cases j <;> simp [X, Matrix.mul_apply, Fin.sum_univ_two]
  · constructor <;> intros <;> simp [Q, S] <;> omega
  · unfold Src.detRatioReplace
    have e1 : (X.block 1 1 1 1).det = 1 := by simp [DMat.det, DMat.block, X]
    have e2 : T.det = 1 := by simp [DMat.det, T, S, Q, DMat.sub, DMat.mul]
    simp only [Res.assert, Q, X, S]
    simp only [Nat.reduceLeDiff, if_true, Res.bind_ok, Nat.reduceSub, one_ne_zero, if_false, and_self,
      Res.pure_eq]
    congr 2
    exact (show (X.block 1 1 1 1).det * T.det = 1 by rw [e1, e2]; norm_num)
  · intro junk
    unfold Src.inverseReplace
    have hr : Mm.rows = 1 := rfl
    have hc : Mm.cols = 1 := rfl
    simp only [Res.assert, Q, X, S, DMat.assignBlock]
    simp only [Nat.reduceLeDiff, if_true, Res.bind_ok, Nat.reduceSub, one_ne_zero, if_false, and_self,
      Res.pure_eq, DMat.inv_rows, DMat.inv_cols, DMat.block_rows, DMat.block_cols, zero_lt_one,
      DMat.mul_rows, DMat.mul_cols, DMat.neg_rows, DMat.sub_rows, DMat.sub_cols, hr, hc,
      DMat.setBlock_rows, DMat.setBlock_cols, DMat.destructiveResize_rows, DMat.destructiveResize_cols,
      Nat.reduceAdd, Nat.zero_add, le_refl]
    refine ⟨_, rfl, ?_⟩
    intro hI
    have h2 := hI.sum_left (i := 1) (j := 0) (by norm_num) (by norm_num)
    simp only [Finset.sum_range_succ, Finset.sum_range_zero] at h2
    rw [DMat.setBlock_in (by simp [hr, hc])] at h2
    simp [DMat.sub_val, DMat.mul_val, hMm] at h2

/-- Non-vacuity for C15: invertible leading block, one row and column replaced by two. -/
example : ∃ (g gold : ℕ → ℕ → ℚ) (X Q R S : DMat ℚ), IsInvOf X (1 + 1) gold ∧
    (∀ i < 1, ∀ j < 1, g i j = gold i j) ∧ UpBlocks 1 2 g Q R S ∧ detN 1 gold ≠ 0 ∧
    detN (1 + 2) g ≠ 0 := by
  refine ⟨fun i j => if i = j then 2 else 1, fun i j => if i = j then 2 else 0,
    ⟨2, 2, fun i j => if i = j then 1 / 2 else 0⟩, ⟨1, 2, fun _ _ => 1⟩, ⟨2, 1, fun _ _ => 1⟩,
    ⟨2, 2, fun i j => if i = j then 2 else 1⟩, ⟨rfl, rfl, ?_⟩, ?_, ?_, ?_, ?_⟩
  · ext i j
    fin_cases i <;> fin_cases j <;> simp [Matrix.mul_apply, Fin.sum_univ_two]
  · intro i hi j hj
    have : i = 0 := by omega
    have : j = 0 := by omega
    simp [*]
  · constructor <;> intros <;> simp <;> omega
  · simp [detN]
  · simp [detN, Matrix.det_fin_three]; norm_num

/-! ### C16 -/

/-- C16 (include/): replacing the last row, ratio. -/
theorem C16_inc_detRatioLastRow {n : ℕ} {g : ℕ → ℕ → K} {X row : DMat K} (hn : 0 < n)
    (hX : IsInvOf X n g) (hr : row.rows = 1) (hc : row.cols = n) :
    Inc.detRatioLastRow X row = .ok (detN n (withRow g (n - 1) (row.val 0)) / detN n g) := by
  unfold Inc.detRatioLastRow
  simp only [hX.1, hX.2.1, hr, hc, hn, Res.assert_true trivial, Res.bind_ok, Res.pure_eq]
  congr 1
  unfold withRow
  rw [detN_replace_row hX (by omega), mul_div_assoc, div_self hX.det_ne_zero, mul_one, DMat.mul_val, hc]
  simp [DMat.block_val]

/-- C16 (include/): replacing the last row, inverse. -/
theorem C16_inc_inverseLastRow {n : ℕ} {g : ℕ → ℕ → K} {X row : DMat K} (hn : 0 < n)
    (hX : IsInvOf X n g) (hr : row.rows = 1) (hc : row.cols = n)
    (h : detN n (withRow g (n - 1) (row.val 0)) ≠ 0) :
    ∃ Y, Inc.inverseLastRow X row (detN n (withRow g (n - 1) (row.val 0)) / detN n g) = .ok Y ∧
      IsInvOf Y n (withRow g (n - 1) (row.val 0)) := by
  have hl : detN n (withRow g (n - 1) (row.val 0)) / detN n g =
      ∑ k ∈ Finset.range n, row.val 0 k * X.val k (n - 1) := by
    unfold withRow
    rw [detN_replace_row hX (by omega), mul_div_assoc, div_self hX.det_ne_zero, mul_one]
  unfold Inc.inverseLastRow
  simp only [hX.1, hX.2.1, hr, hc, hn, Res.assert_true trivial, and_self, Res.bind_ok, Res.pure_eq]
  refine ⟨_, rfl, ?_⟩
  refine replace_row_inverse hX (by omega) hl (div_ne_zero h hX.det_ne_zero) rfl rfl ?_
  intro i hi j hj
  by_cases hj1 : j = n - 1
  · simp only [if_pos hj1]; ring
  · simp only [if_neg hj1, DMat.mul_val, hc]
    simp only [DMat.block_val, Nat.zero_add]; ring

/-- C16 (include/): replacing the last column, ratio. -/
theorem C16_inc_detRatioLastCol {n : ℕ} {g : ℕ → ℕ → K} {X col : DMat K} (hn : 0 < n)
    (hX : IsInvOf X n g) (hr : col.rows = n) (hc : col.cols = 1) :
    Inc.detRatioLastCol X col =
      .ok (detN n (withCol g (n - 1) (fun i => col.val i 0)) / detN n g) := by
  unfold Inc.detRatioLastCol
  simp only [hX.1, hX.2.1, hr, hc, hn, Res.assert_true trivial, and_self, Res.bind_ok, Res.pure_eq]
  congr 1
  have := detN_replace_row hX.transpose (m := n - 1) (by omega) (fun i => col.val i 0)
  rw [detN_transpose n g] at this
  have e : detN n (withCol g (n - 1) (fun i => col.val i 0)) =
      detN n (fun i j => if i = n - 1 then col.val j 0 else g j i) := by
    rw [← detN_transpose]; rfl
  rw [e, this, mul_div_assoc, div_self hX.det_ne_zero, mul_one, DMat.mul_val]
  simp [DMat.block_val, mul_comm]

/-- C16 (include/): replacing the last column, inverse. -/
theorem C16_inc_inverseLastCol {n : ℕ} {g : ℕ → ℕ → K} {X col : DMat K} (hn : 0 < n)
    (hX : IsInvOf X n g) (hr : col.rows = n) (hc : col.cols = 1)
    (h : detN n (withCol g (n - 1) (fun i => col.val i 0)) ≠ 0) :
    ∃ Y, Inc.inverseLastCol X col
        (detN n (withCol g (n - 1) (fun i => col.val i 0)) / detN n g) = .ok Y ∧
      IsInvOf Y n (withCol g (n - 1) (fun i => col.val i 0)) := by
  have e : detN n (withCol g (n - 1) (fun i => col.val i 0)) =
      detN n (fun i j => if i = n - 1 then col.val j 0 else g j i) := by
    rw [← detN_transpose]; rfl
  have hl : detN n (withCol g (n - 1) (fun i => col.val i 0)) / detN n g =
      ∑ k ∈ Finset.range n, col.val k 0 * X.val (n - 1) k := by
    rw [e, detN_replace_row hX.transpose (m := n - 1) (by omega) (fun i => col.val i 0), detN_transpose,
      mul_div_assoc, div_self hX.det_ne_zero, mul_one]
  unfold Inc.inverseLastCol
  simp only [hX.1, hX.2.1, hr, hc, hn, Res.assert_true trivial, and_self, Res.bind_ok, Res.pure_eq]
  refine ⟨_, rfl, ?_⟩
  have := replace_row_inverse (Y := ⟨n, n, fun n_1 m => if m = n - 1 then X.val (n - 1) n_1 * (1 / (detN n (withCol g (n - 1) (fun i => col.val i 0)) / detN n g)) else X.val m n_1 - X.val (n-1) n_1 * (∑ k ∈ Finset.range n, col.val k 0 * X.val m k) * (1 / (detN n (withCol g (n - 1) (fun i => col.val i 0)) / detN n g))⟩)
    hX.transpose (m := n - 1) (by omega) (b := fun i => col.val i 0) hl (div_ne_zero h hX.det_ne_zero) rfl rfl ?_
  · have t := this.transpose
    refine (t.congr_left rfl rfl ?_)
    intro i hi j hj
    by_cases hi1 : i = n - 1
    · simp only [if_pos hi1]
    · simp only [if_neg hi1, DMat.mul_val]
      simp only [DMat.block_val, DMat.block_cols, Nat.zero_add, mul_comm (col.val _ _)]
  · intro i hi j hj
    by_cases hj1 : j = n - 1
    · simp only [if_pos hj1]; ring
    · simp only [if_neg hj1]; ring

/-- C16 (src/): ratio for replacing row `m`. -/
theorem C16_src_detRatioReplaceRow {n m : ℕ} {g : ℕ → ℕ → K} {X Dr : DMat K} (hm : m < n)
    (hX : IsInvOf X n g) (hr : Dr.rows = 1) (hc : Dr.cols = n) :
    Src.detRatioReplaceRow X Dr m = .ok (detN n (withRow g m (Dr.val 0)) / detN n g) := by
  unfold Src.detRatioReplaceRow
  simp only [hX.1, hX.2.1, hr, hc, hm, Res.assert_true trivial, and_self, Res.bind_ok, Res.pure_eq]
  congr 1
  unfold withRow
  rw [detN_replace_row hX hm, mul_div_assoc, div_self hX.det_ne_zero, mul_one]

/-- C16 (src/): what `compute_imverse_matrix_replace_row` has stored in its matrix argument when control
    reaches its end is the inverse of the new matrix ... -/
theorem C16_src_replaceRow_partial {n m : ℕ} {g : ℕ → ℕ → K} {X Dr : DMat K} (hm : m < n)
    (hX : IsInvOf X n g) (hr : Dr.rows = 1) (hc : Dr.cols = n)
    (h : detN n (withRow g m (Dr.val 0)) ≠ 0) :
    IsInvOf (Src.replaceRowNewM X Dr m) n (withRow g m (Dr.val 0)) := by
  have hl : detN n (withRow g m (Dr.val 0)) / detN n g =
      ∑ k ∈ Finset.range n, Dr.val 0 k * X.val k m := by
    unfold withRow
    rw [detN_replace_row hX hm, mul_div_assoc, div_self hX.det_ne_zero, mul_one]
  refine replace_row_inverse hX hm hl (div_ne_zero h hX.det_ne_zero) hX.2.1 hX.2.1 ?_
  intro i hi j hj
  unfold Src.replaceRowNewM
  simp only [hX.2.1, ← hl, if_true]
  by_cases hj1 : j = m
  · subst hj1; simp only [if_true]; ring
  · simp only [if_neg hj1, DMat.mul_val, hc]; ring

/-- ... but, being declared to return a value and having no return statement, no call of it is defined. -/
theorem C16_src_replaceRow_violation {m : ℕ} (X Dr : DMat K) :
    Src.inverseReplaceRow X Dr m = .ub := by
  unfold Src.inverseReplaceRow Res.assert
  split_ifs <;> rfl

/-- Non-vacuity for C16. -/
example : ∃ (g : ℕ → ℕ → ℚ) (X row : DMat ℚ), IsInvOf X 2 g ∧ row.rows = 1 ∧ row.cols = 2 ∧
    detN 2 (withRow g (2 - 1) (row.val 0)) = 3 ∧ detN 2 (withCol g (2 - 1) (row.val 0)) = 3 := by
  refine ⟨fun i j => if i = j then 1 else 0, ⟨2, 2, fun i j => if i = j then 1 else 0⟩,
    ⟨1, 2, fun _ j => j + 2⟩, ⟨rfl, rfl, ?_⟩, rfl, rfl, ?_, ?_⟩
  · ext i j
    fin_cases i <;> fin_cases j <;> simp [Matrix.mul_apply, Fin.sum_univ_two]
  · simp [detN, Matrix.det_fin_two, withRow]; norm_num
  · simp [detN, Matrix.det_fin_two, withCol]; norm_num

/-! ### C17 -/

/-- The matrix with changed diagonal as a low-rank update. -/
theorem withDiag_eq {n M : ℕ} {pos : List ℕ} (g : ℕ → ℕ → K) (d : ℕ → K) :
    toM n n (withDiag g M pos d) = toM n n g +
      (toM n M fun i k => if pos.getD k 0 = i then d k else 0) *
        (toM M n fun k j => if pos.getD k 0 = j then (1 : K) else 0) := by
  ext i j
  simp only [toM_apply, withDiag, Matrix.add_apply, Matrix.mul_apply]
  congr 1
  rw [Fin.sum_univ_eq_sum_range (fun k => (if pos.getD k 0 = (i : ℕ) then d k else 0) *
    (if pos.getD k 0 = (j : ℕ) then (1 : K) else 0)) M]
  split_ifs with h
  · refine Finset.sum_congr rfl fun k _ => ?_
    rw [h]; split_ifs <;> simp
  · symm
    refine Finset.sum_eq_zero fun k _ => ?_
    split_ifs <;> first | omega | simp

/-- Selecting rows and columns by position. -/
theorem select_mul {n M : ℕ} {p : ℕ → ℕ} (hp : ∀ j < M, p j < n) (X : ℕ → ℕ → K) (d : ℕ → K) :
    (toM M n fun k j => if p k = j then (1 : K) else 0) * toM n n X *
      (toM n M fun i k => if p k = i then d k else 0) =
    toM M M fun i j => X (p i) (p j) * d j := by
  ext i j
  simp only [Matrix.mul_apply, toM_apply]
  have h1 : ∀ b : Fin n, ∑ a : Fin n, (if p i = (a : ℕ) then (1 : K) else 0) * X a b = X (p i) b := by
    intro b
    rw [Finset.sum_eq_single ⟨p i, hp i i.2⟩]
    · simp
    · intro a _ ha
      rw [if_neg (fun h => ha (Fin.ext h.symm)), zero_mul]
    · simp
  simp only [h1]
  rw [Finset.sum_eq_single ⟨p j, hp j j.2⟩]
  · simp
  · intro a _ ha
    rw [if_neg (fun h => ha (Fin.ext h.symm)), mul_zero]
  · simp

theorem diag_det {n M : ℕ} {pos : List ℕ} {g : ℕ → ℕ → K} {d : ℕ → K} {X : DMat K}
    (hX : IsInvOf X n g) (hp : ∀ j < M, pos.getD j 0 < n) :
    (Src.diagX M pos d X).det = detN n (withDiag g M pos d) / detN n g := by
  rw [eq_div_iff hX.det_ne_zero]
  unfold detN
  rw [withDiag_eq, det_woodbury hX.2.2, mul_comm, select_mul (p := fun k => pos.getD k 0) hp]
  rw [DMat.det_eq (n := M) rfl]
  congr 2
  ext i j
  simp only [Src.diagX, DMat.mat, toM_apply, Matrix.add_apply, Matrix.one_apply, Fin.ext_iff]
  rw [add_comm]

/-- C17: the value is det(new)/det(old), whatever positions (repeated ones included) are listed. -/
theorem C17_diag_ratio {n M : ℕ} {pos : List ℕ} {g : ℕ → ℕ → K} {d : ℕ → K} {X : DMat K}
    (hX : IsInvOf X n g) (hl : M ≤ pos.length) (hp : ∀ j < M, pos.getD j 0 < n) :
    Src.diagUpdate M pos d true X = .ok (detN n (withDiag g M pos d) / detN n g, X) := by
  unfold Src.diagUpdate
  simp only [hX.1, hX.2.1, Res.assert_true trivial, Res.assert_true hl, Res.assert_true hp, Res.bind_ok,
    if_true, Res.pure_eq, diag_det hX hp]

/-- C17: for ascending positions and non-zero changes the matrix becomes the inverse of the new matrix, in
    the original order of rows and columns. -/
theorem C17_diag_inverse {N M : ℕ} {pos : List ℕ} {g : ℕ → ℕ → K} {d : ℕ → K} {X : DMat K}
    (hX : IsInvOf X (N + M) g) (hl : pos.length = M) (hp : Ascending (N + M) pos)
    (hd : ∀ k < M, d k ≠ 0) (h : detN (N + M) (withDiag g M pos d) ≠ 0) :
    ∃ Y, Src.diagUpdate M pos d false X =
        .ok (detN (N + M) (withDiag g M pos d) / detN (N + M) g, Y) ∧
      IsInvOf Y (N + M) (withDiag g M pos d) := by
  have hb : ∀ j < M, pos.getD j 0 < N + M := by
    intro j hj
    rw [List.getD_eq_getElem _ _ (by omega)]
    exact hp.2 _ (List.getElem_mem _)
  unfold Src.diagUpdate
  simp only [hX.1, hX.2.1, Res.assert_true trivial, Res.assert_true (show M ≤ pos.length by omega),
    Res.assert_true hb, Res.assert_true (show M ≤ N + M by omega), Res.bind_ok, Bool.false_eq_true, if_false,
    Res.pure_eq, diag_det hX hb, show N + M - M = N by omega]
  refine ⟨_, rfl, ?_⟩
  subst hl
  obtain ⟨s0, s1, s2⟩ := sw_ascending hp
  have hY := hX.applySwaps s0
  have hYv := applySwaps_val (Src.swapList pos.length (N + pos.length) pos) X
  have hYr := (applySwaps_rows (Src.swapList pos.length (N + pos.length) pos) X).trans hX.1
  have hYc := (applySwaps_cols (Src.swapList pos.length (N + pos.length) pos) X).trans hX.2.1
  have s3 : ∀ k < pos.length, ∀ i, pos.getD k 0 = permOf (Src.swapList pos.length (N + pos.length) pos) i ↔ N + k = i := by
    intro k hk i
    rw [← s1 k hk, (Equiv.injective _).eq_iff]
  have bnd : ∀ q ∈ (Src.swapList pos.length (N + pos.length) pos).reverse,
      q.1 < N + pos.length ∧ q.2 < N + pos.length := fun q hq => s0 q (by simpa using hq)
  have inv := permOf_reverse (Src.swapList pos.length (N + pos.length) pos)
  generalize Src.applySwaps (Src.swapList pos.length (N + pos.length) pos) X = Y at *
  generalize Src.swapList pos.length (N + pos.length) pos = sl at *
  -- the small matrix
  let n := N + pos.length
  let M := pos.length
  let U : Matrix (Fin n) (Fin M) K := toM n M fun i k => if N + k = i then 1 else 0
  let V : Matrix (Fin M) (Fin n) K := toM M n fun k j => if N + k = j then 1 else 0
  let D : Matrix (Fin M) (Fin M) K := Matrix.diagonal fun k => d k
  let Di : Matrix (Fin M) (Fin M) K := Matrix.diagonal fun k => 1 / d k
  have hDi : Di * D = 1 := by
    simp only [Di, D, Matrix.diagonal_mul_diagonal]
    rw [← Matrix.diagonal_one]
    congr 1
    funext k
    exact one_div_mul_cancel (hd k k.2)
  have hUD : U * D = toM n M fun i k => if N + k = i then d k else 0 := by
    ext i k
    simp [U, D, Matrix.mul_diagonal]
  have hnew : toM n n (fun i j => withDiag g pos.length pos d (permOf sl i) (permOf sl j)) =
      toM n n (fun i j => g (permOf sl i) (permOf sl j)) + U * D * V := by
    rw [hUD]
    ext i j
    simp only [toM_apply, withDiag, Matrix.add_apply, Matrix.mul_apply, (Equiv.injective (permOf sl)).eq_iff]
    congr 1
    simp only [V, toM_apply]
    rw [Fin.sum_univ_eq_sum_range (fun k => (if N + k = (i : ℕ) then d k else 0) *
      (if N + k = (j : ℕ) then (1 : K) else 0)) M]
    split_ifs with h
    · refine Finset.sum_congr rfl fun k hk => ?_
      rw [← h]
      simp only [s3 k (Finset.mem_range.mp hk)]
      split_ifs <;> simp
    · symm
      refine Finset.sum_eq_zero fun k _ => ?_
      split_ifs <;> first | omega | simp
  have hVYU : V * toM n n Y.val * U = toM M M fun i j => Y.val (N + i) (N + j) := by
    have := select_mul (n := n) (M := M) (p := fun k => N + k) (fun j hj => by simp only [n, M] at *; omega)
      Y.val (fun _ => (1 : K))
    rw [show V * toM n n Y.val * U = _ from this]
    simp
  have hdetC : (Di + V * toM n n Y.val * U).det ≠ 0 := by
    intro h0
    have e1 : ((Di + V * toM n n Y.val * U) * D).det = 0 := by rw [Matrix.det_mul, h0, zero_mul]
    have e2 : (Di + V * toM n n Y.val * U) * D = 1 + V * toM n n Y.val * (U * D) := by
      rw [Matrix.add_mul, hDi]; simp only [Matrix.mul_assoc]
    rw [e2] at e1
    have e3 := det_woodbury (U := U * D) (V := V) hY.2.2
    rw [e1, mul_zero, ← hnew] at e3
    exact h ((detN_permOf (g := withDiag g pos.length pos d) s0).symm.trans e3)
  -- the updated matrix, before the rows and columns are put back
  have key : ∀ Z : DMat K, Z.rows = n → Z.cols = n →
      (toM n n Z.val = toM n n Y.val - toM n n Y.val * U * (Di + V * toM n n Y.val * U)⁻¹ *
        (V * toM n n Y.val)) →
      IsInvOf (Src.applySwaps sl.reverse Z) n (withDiag g pos.length pos d) := by
    intro Z h1 h2 h3
    have hZ : IsInvOf Z n (fun i j => withDiag g pos.length pos d (permOf sl i) (permOf sl j)) := by
      refine ⟨h1, h2, ?_⟩
      rw [h3, hnew]
      exact woodbury hY.2.2 hDi (Matrix.nonsing_inv_mul _ (isUnit_iff_ne_zero.mpr hdetC))
    refine (hZ.applySwaps bnd).congr fun i hi j hj => ?_
    rw [inv]; simp
  refine key _ (by simp [hYr, n]) (by simp [hYc, n]) ?_
  have eYU : toM n n Y.val * U = (Y.block 0 N n M).mat n M := by
    ext i k
    simp only [U, Matrix.mul_apply, toM_apply, DMat.mat, DMat.block, Nat.zero_add]
    rw [Finset.sum_eq_single ⟨N + k, by have := k.2; simp only [n, M] at *; omega⟩]
    · simp
    · intro a _ ha
      rw [if_neg (fun h => ha (Fin.ext h.symm)), mul_zero]
    · simp
  have eVY : V * toM n n Y.val = (Y.block N 0 M n).mat M n := by
    ext k i
    simp only [V, Matrix.mul_apply, toM_apply, DMat.mat, DMat.block, Nat.zero_add]
    rw [Finset.sum_eq_single ⟨N + k, by have := k.2; simp only [n, M] at *; omega⟩]
    · simp
    · intro a _ ha
      rw [if_neg (fun h => ha (Fin.ext h.symm)), zero_mul]
    · simp
  have eC : ∀ C : DMat K, C = ⟨M, M, fun i j => (Y.block N N M M).val i j + if i = j then 1 / d i else 0⟩ →
      (if 0 < M then C.inv else C).mat M M = (Di + V * toM n n Y.val * U)⁻¹ ∧
      (if 0 < M then C.inv else C).cols = M := by
    rintro _ rfl
    constructor
    · split_ifs with hM
      · rw [DMat.mat_inv (n := M) rfl]
        congr 1
        rw [hVYU]
        ext i j
        simp only [DMat.mat, toM_apply, DMat.block, Matrix.add_apply, Di, Matrix.diagonal_apply, Fin.ext_iff]
        rw [add_comm]
      · ext i; exact absurd i.2 (by omega)
    · split_ifs <;> rfl
  obtain ⟨c1, c2⟩ := eC _ rfl
  show (Y.sub _).mat n n = _
  rw [DMat.mat_sub, DMat.mat_mul (m := M) rfl, DMat.mat_mul c2, c1, ← eYU, ← eVY, Matrix.mul_assoc, Matrix.mul_assoc,
    Matrix.mul_assoc, Matrix.mul_assoc]
  rfl

/-- Non-vacuity for C17: one of the two diagonal elements of the identity is changed from 1 to 3. -/
example : ∃ (g : ℕ → ℕ → ℚ) (X : DMat ℚ) (d : ℕ → ℚ), IsInvOf X (1 + 1) g ∧ Ascending (1 + 1) [0] ∧
    (∀ k < 1, d k ≠ 0) ∧ detN (1 + 1) (withDiag g 1 [0] d) = 3 := by
  refine ⟨fun i j => if i = j then 1 else 0, ⟨2, 2, fun i j => if i = j then 1 else 0⟩, fun _ => 2,
    ⟨rfl, rfl, ?_⟩, ⟨by decide, by decide⟩, fun _ _ => by norm_num, ?_⟩
  · ext i j
    fin_cases i <;> fin_cases j <;> simp [Matrix.mul_apply, Fin.sum_univ_two]
  · simp [detN, Matrix.det_fin_two, withDiag]; norm_num

end CTInt
