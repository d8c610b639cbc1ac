import Mathlib.Tactic.NormNum
import Mathlib.Tactic.IntervalCases
import Mathlib.Data.List.Dedup
import Verif.Proofs.PlaceRC

/-!
# Properties C68, C69 : replacing a row together with a column; placing rows and columns
-/

set_option linter.all false

open Matrix

namespace CTInt

/-! ### C68 -/

/-- C68: `invG` being the inverse of `g`, `compute_inverse_matrix_replace_row_col` returns
    det(new)/det(old), `new` being `g` with row `m` and column `m` replaced by `Dr` and `Dc`; whichever
    branch is taken, and also if the new matrix is singular. -/
theorem C68_ratio {n m : ℕ} {g : ℕ → ℕ → ℝ} {X Dr Dc : DMat ℝ} (eps : ℝ) (sing : Bool) (hm : m < n + 1)
    (hX : IsInvOf X (n + 1) g) (hDr : Dr.rows = 1 ∧ Dr.cols = n + 1) (hDc : Dc.rows = n + 1 ∧ Dc.cols = 1)
    (hrc : Dr.val 0 m = Dc.val m 0) :
    ∃ Z, Src.replaceRowCol eps X Dr Dc m sing =
      .ok (detN (n + 1) (withRowCol g m (fun j => Dr.val 0 j) (fun i => Dc.val i 0)) / detN (n + 1) g, Z) := by
  obtain ⟨Z, h, -⟩ := replaceRowCol_spec eps sing hm hX hDr hDc hrc
  exact ⟨Z, h⟩

/-- C68 (the remaining matrix is not singular): if the caller does not claim a singular remaining matrix, if
    the determinant of the remaining matrix is not zero and not below the code's threshold relative to both the
    old and the new determinant, then the matrix written is the inverse of the new matrix. -/
theorem C68_inverse_partial {n m : ℕ} {g : ℕ → ℕ → ℝ} {X Dr Dc : DMat ℝ} (eps : ℝ) (hm : m < n + 1)
    (hX : IsInvOf X (n + 1) g) (hDr : Dr.rows = 1 ∧ Dr.cols = n + 1) (hDc : Dc.rows = n + 1 ∧ Dc.cols = 1)
    (hrc : Dr.val 0 m = Dc.val m 0)
    (hd : detN (n + 1) (withRowCol g m (fun j => Dr.val 0 j) (fun i => Dc.val i 0)) ≠ 0)
    (h0 : minorDet n g m ≠ 0)
    (hreg : ¬ (|minorDet n g m / detN (n + 1) g| < eps ∧
      |minorDet n g m / detN (n + 1) (withRowCol g m (fun j => Dr.val 0 j) (fun i => Dc.val i 0))| < eps)) :
    ∃ lam Z, Src.replaceRowCol eps X Dr Dc m false = .ok (lam, Z) ∧
      IsInvOf Z (n + 1) (withRowCol g m (fun j => Dr.val 0 j) (fun i => Dc.val i 0)) := by
  obtain ⟨Z, h, hz⟩ := replaceRowCol_spec eps false hm hX hDr hDc hrc
  refine ⟨_, Z, h, (hz hd).2 ?_ ?_⟩
  · rw [inv_diag_minor hm hX]
    have e : minorDet n g m / detN (n + 1) g / (detN (n + 1) (rcNew g m Dr Dc) / detN (n + 1) g) =
        minorDet n g m / detN (n + 1) (rcNew g m Dr Dc) := by
      have := hX.det_ne_zero
      have : detN (n + 1) (rcNew g m Dr Dc) ≠ 0 := hd
      field_simp
    rw [e]
    simpa using hreg
  · rw [inv_diag_minor hm hX]
    exact div_ne_zero h0 hX.det_ne_zero

/-- C68 (the remaining matrix is singular): whether or not the caller says so, the matrix written is the
    inverse of the new matrix if and only if the new diagonal element is zero.  The term of the formula with the
    new diagonal element is missing in the code (lines 383-386). -/
theorem C68_singular_iff {n m : ℕ} {g : ℕ → ℕ → ℝ} {X Dr Dc : DMat ℝ} {eps : ℝ} (heps : 0 < eps) (sing : Bool)
    (hm : m < n + 1) (hX : IsInvOf X (n + 1) g) (hDr : Dr.rows = 1 ∧ Dr.cols = n + 1)
    (hDc : Dc.rows = n + 1 ∧ Dc.cols = 1) (hrc : Dr.val 0 m = Dc.val m 0)
    (hd : detN (n + 1) (withRowCol g m (fun j => Dr.val 0 j) (fun i => Dc.val i 0)) ≠ 0)
    (h0 : minorDet n g m = 0) :
    ∃ lam Z, Src.replaceRowCol eps X Dr Dc m sing = .ok (lam, Z) ∧
      (IsInvOf Z (n + 1) (withRowCol g m (fun j => Dr.val 0 j) (fun i => Dc.val i 0)) ↔ Dc.val m 0 = 0) := by
  obtain ⟨Z, h, hz⟩ := replaceRowCol_spec eps sing hm hX hDr hDc hrc
  have hx : X.val m m = 0 := by rw [inv_diag_minor hm hX, h0, zero_div]
  refine ⟨_, Z, h, (hz hd).1 (Or.inr ?_) hx⟩
  rw [hx, zero_div, abs_zero]
  exact ⟨heps, heps⟩

/-- C68: `compute_inverse_matrix_replace_row_col2`, for a singular remaining matrix.  Asked for the ratio
    only, it returns det(new)/det(old) and leaves the matrix as it was.  Otherwise it returns the same value,
    and the matrix written is the inverse of the new matrix if and only if the new diagonal element is zero. -/
theorem C68_row_col2 {n m : ℕ} {g : ℕ → ℕ → ℝ} {X Dr Dc : DMat ℝ} (hm : m < n + 1)
    (hX : IsInvOf X (n + 1) g) (hDr : Dr.rows = 1 ∧ Dr.cols = n + 1) (hDc : Dc.rows = n + 1 ∧ Dc.cols = 1)
    (hrc : Dr.val 0 m = Dc.val m 0) (h0 : minorDet n g m = 0) :
    Src.replaceRowCol2 X Dr Dc m true =
      .ok (detN (n + 1) (withRowCol g m (fun j => Dr.val 0 j) (fun i => Dc.val i 0)) / detN (n + 1) g, X) ∧
    ∃ Z, Src.replaceRowCol2 X Dr Dc m false =
        .ok (detN (n + 1) (withRowCol g m (fun j => Dr.val 0 j) (fun i => Dc.val i 0)) / detN (n + 1) g, Z) ∧
      (detN (n + 1) (withRowCol g m (fun j => Dr.val 0 j) (fun i => Dc.val i 0)) ≠ 0 →
        (IsInvOf Z (n + 1) (withRowCol g m (fun j => Dr.val 0 j) (fun i => Dc.val i 0)) ↔ Dc.val m 0 = 0)) :=
  replaceRowCol2_spec hm hX hDr hDc hrc (by rw [inv_diag_minor hm hX, h0, zero_div])

/-- The two by two matrix with rows (0,1), (1,0); it is its own inverse. -/
def exSwap2 : DMat ℝ := ⟨2, 2, fun i j => if i = j then 0 else 1⟩

theorem exSwap2_inv : IsInvOf exSwap2 (1 + 1) exSwap2.val := by
  refine ⟨rfl, rfl, ?_⟩
  ext i j
  fin_cases i <;> fin_cases j <;> simp [exSwap2, Matrix.mul_apply, Fin.sum_univ_two]

theorem exSwap2_minor : minorDet 1 exSwap2.val 1 = 0 := by
  simp [minorDet, detN, skipOne, exSwap2]

/-- C68 violated: the last row and column of [[0,1],[1,0]] are replaced by (1,1) and (1,1).  The new matrix
    [[0,1],[1,1]] is not singular, but with the threshold of the code, and without any claim by the caller, the matrix
    written is not its inverse. -/
theorem C68_violation : ∃ (g : ℕ → ℕ → ℝ) (X Dr Dc : DMat ℝ), IsInvOf X (1 + 1) g ∧
    detN (1 + 1) (withRowCol g 1 (fun j => Dr.val 0 j) (fun i => Dc.val i 0)) = -1 ∧
    ∃ lam Z, Src.replaceRowCol (1 / 10 ^ 10) X Dr Dc 1 false = .ok (lam, Z) ∧
      ¬ IsInvOf Z (1 + 1) (withRowCol g 1 (fun j => Dr.val 0 j) (fun i => Dc.val i 0)) := by
  have hd : detN (1 + 1) (withRowCol exSwap2.val 1 (fun j => (⟨1, 2, fun _ _ => 1⟩ : DMat ℝ).val 0 j)
      (fun i => (⟨2, 1, fun _ _ => 1⟩ : DMat ℝ).val i 0)) = -1 := by
    simp [detN, Matrix.det_fin_two, withRowCol, exSwap2]
  refine ⟨exSwap2.val, exSwap2, ⟨1, 2, fun _ _ => 1⟩, ⟨2, 1, fun _ _ => 1⟩, exSwap2_inv, hd, ?_⟩
  obtain ⟨lam, Z, h, hz⟩ := C68_singular_iff (n := 1) (m := 1) (Dr := ⟨1, 2, fun _ _ => 1⟩)
    (Dc := ⟨2, 1, fun _ _ => 1⟩) (eps := 1 / 10 ^ 10) (by norm_num) false (by omega) exSwap2_inv
    ⟨rfl, rfl⟩ ⟨rfl, rfl⟩ rfl (by rw [hd]; norm_num) exSwap2_minor
  refine ⟨lam, Z, h, fun hc => ?_⟩
  have := hz.mp hc
  simp at this

/-- C68 violated: `compute_inverse_matrix_replace_row_col2` applied to the identity, where the remaining matrix
    is not singular.  The last diagonal element is replaced by 2: the ratio is 2, the value returned is 0. -/
theorem C68_row_col2_violation : ∃ (g : ℕ → ℕ → ℝ) (X Dr Dc : DMat ℝ) (Z : DMat ℝ), IsInvOf X (1 + 1) g ∧
    detN (1 + 1) (withRowCol g 1 (fun j => Dr.val 0 j) (fun i => Dc.val i 0)) / detN (1 + 1) g = 2 ∧
    Src.replaceRowCol2 X Dr Dc 1 true = .ok (0, Z) := by
  refine ⟨fun i j => if i = j then 1 else 0, ⟨2, 2, fun i j => if i = j then 1 else 0⟩,
    ⟨1, 2, fun _ j => if j = 1 then 2 else 0⟩, ⟨2, 1, fun i _ => if i = 1 then 2 else 0⟩,
    ⟨2, 2, fun i j => if i = j then 1 else 0⟩, ⟨rfl, rfl, ?_⟩, ?_, ?_⟩
  · ext i j
    fin_cases i <;> fin_cases j <;> simp [Matrix.mul_apply, Fin.sum_univ_two]
  · simp [detN, Matrix.det_fin_two, withRowCol]
  · unfold Src.replaceRowCol2 Src.rcChecks
    simp [DMat.mul, DMat.block, DMat.swapCol, DMat.swapRow, Src.swapBoth]

/-- C68: a row and a column which do not fit are refused by both functions, whatever the inverse: the matrix not square,
    the row or the column of the wrong size, the position outside the matrix, or row and column in disagreement about their
    common element. -/
theorem C68_refused (eps : ℝ) (X Dr Dc : DMat ℝ) (m : ℕ) (b : Bool)
    (h : ¬ (X.rows = X.cols ∧ (Dr.rows = 1 ∧ Dr.cols = X.cols) ∧ (Dc.rows = X.cols ∧ Dc.cols = 1) ∧ m < X.cols ∧
      Dr.val 0 m = Dc.val m 0)) :
    Src.replaceRowCol eps X Dr Dc m b = .ub ∧ Src.replaceRowCol2 X Dr Dc m b = .ub := by
  have key : Src.rcChecks X Dr Dc m = .ub := by
    unfold Src.rcChecks Res.assert
    split_ifs <;> first | rfl | skip
    exact absurd ⟨by assumption, by assumption, by assumption, by assumption, by assumption⟩ h
  constructor
  · unfold Src.replaceRowCol; rw [key]; rfl
  · unfold Src.replaceRowCol2; rw [key]; rfl

/-- Non-vacuity: row (1,1) and column (1,2) of a matrix of size two disagree at their common element. -/
example : Src.replaceRowCol2 exSwap2 ⟨1, 2, fun _ _ => 1⟩ ⟨2, 1, fun i _ => if i = 1 then 2 else 1⟩ 1 true = .ub :=
  (C68_refused 0 _ _ _ 1 true (by simp)).2

/-- C68, several rows and columns: `compute_inverse_matrix_replace_rows_cols_succesive` replaces the rows and
    columns of an ascending list one after another.  If every intermediate matrix fulfils the conditions of
    `C68_inverse_partial`, the value is det(new)/det(old) and the matrix written is the inverse of the new matrix. -/
theorem C68_successive_partial {n : ℕ} {rc : List ℕ} {g new : ℕ → ℕ → ℝ} {X Q R S : DMat ℝ} (eps : ℝ)
    (junkr junkc : ℕ → ℝ) (hne : rc ≠ []) (ha : Ascending (n + 1) rc)
    (hb : NaturalBlocks (n + 1) rc new Q R S) (hX : IsInvOf X (n + 1) g)
    (hreg : ∀ k < rc.length, detN (n + 1) (withRowsCols g new (rc.take (k + 1))) ≠ 0 ∧
      minorDet n (withRowsCols g new (rc.take k)) (rc.getD k 0) ≠ 0 ∧
      ¬ (|minorDet n (withRowsCols g new (rc.take k)) (rc.getD k 0) /
            detN (n + 1) (withRowsCols g new (rc.take k))| < eps ∧
         |minorDet n (withRowsCols g new (rc.take k)) (rc.getD k 0) /
            detN (n + 1) (withRowsCols g new (rc.take (k + 1)))| < eps)) :
    ∃ Z, Src.replaceSuccessive eps junkr junkc X Q R S rc false =
        .ok (detN (n + 1) (withRowsCols g new rc) / detN (n + 1) g, Z) ∧
      IsInvOf Z (n + 1) (withRowsCols g new rc) := by
  obtain ⟨Z, dr', dc', h1, h2⟩ := succLoop_eq eps ha hb hX hreg junkr junkc rc.length (le_refl _)
  rw [List.take_length] at h1 h2
  refine ⟨Z, ?_, h2⟩
  unfold Src.replaceSuccessive Src.sizeChecks Src.isIncluded
  rw [hX.1, hX.2.1, hb.Qr, hb.Qc, hb.Rr, hb.Rc, hb.Sr, hb.Sc]
  rw [Res.assert_true hne, Res.assert_true (List.isChain_iff_pairwise.mpr ha.1), Res.assert_true ha.2]
  simp only [Res.assert_true trivial, and_self, Res.bind_ok, Res.pure_eq]
  rw [h1]
  rfl

/-- C68: called with an empty list, `compute_inverse_matrix_replace_rows_cols_succesive` is undefined: the
    bound of its check is `rows_cols.size()-1`. -/
theorem C68_successive_empty (eps : ℝ) (junkr junkc : ℕ → ℝ) (X Q R S : DMat ℝ) (sing : Bool) :
    Src.replaceSuccessive eps junkr junkc X Q R S [] sing = .ub := by
  unfold Src.replaceSuccessive Src.sizeChecks
  by_cases h1 : X.rows = X.cols <;> by_cases h2 : Q.rows = X.cols ∧ Q.cols = 0 <;>
    by_cases h3 : R.rows = 0 ∧ R.cols = X.cols <;> by_cases h4 : S.rows = 0 ∧ S.cols = 0 <;>
    simp [Res.assert, h1, h2, h3, h4]

/-- C68: `compute_inverse_matrix_replace_single_row_col` throws `std::logic_error` unless exactly one row and
    column is to be replaced. -/
theorem C68_single_throws (junkr junkc : ℕ → ℝ) (X Q R S : DMat ℝ) (rc : List ℕ) (only : Bool)
    (h : rc.length ≠ 1) : Src.replaceSingle junkr junkc X Q R S rc only = .throw .logicError := by
  unfold Src.replaceSingle
  rw [Res.throwIf_true h]
  rfl

/-- C68: one row and column, the remaining matrix being singular: the value is det(new)/det(old); asked for
    the value only the function leaves the matrix as it was, otherwise the matrix written is the inverse of the new
    one if and only if the new diagonal element is zero. -/
theorem C68_single {n r : ℕ} {g new : ℕ → ℕ → ℝ} {X Q R S : DMat ℝ} (junkr junkc : ℕ → ℝ) (hr : r < n + 1)
    (hb : NaturalBlocks (n + 1) [r] new Q R S) (hX : IsInvOf X (n + 1) g) (h0 : minorDet n g r = 0) :
    Src.replaceSingle junkr junkc X Q R S [r] true =
      .ok (detN (n + 1) (withRowsCols g new [r]) / detN (n + 1) g, X) ∧
    ∃ Z, Src.replaceSingle junkr junkc X Q R S [r] false =
        .ok (detN (n + 1) (withRowsCols g new [r]) / detN (n + 1) g, Z) ∧
      (detN (n + 1) (withRowsCols g new [r]) ≠ 0 →
        (IsInvOf Z (n + 1) (withRowsCols g new [r]) ↔ new r r = 0)) := by
  have ha : Ascending (n + 1) [r] := ⟨by simp, by simpa using hr⟩
  set Dr : DMat ℝ := ⟨1, n + 1, fun _ j => if j < n + 1 then new r j else junkr j⟩ with hDr
  set Dc : DMat ℝ := ⟨n + 1, 1, fun i _ => if i < n + 1 then new i r else junkc i⟩ with hDc
  have hstep := withRowCol_step (N := n + 1) (g := g) (new := new) (k := 0) (rc := [r]) (by simp)
    (r := fun j => Dr.val 0 j) (c := fun i => Dc.val i 0)
    (fun j hj => by simp only [hDr]; rw [if_pos hj]; simp) (fun i hi => by simp only [hDc]; rw [if_pos hi]; simp)
  have e0 : withRowsCols g new (List.take 0 [r]) = g := by funext i j; simp [withRowsCols]
  rw [e0] at hstep
  simp only [zero_add, List.take_succ_cons, List.take_nil, List.getD_cons_zero] at hstep
  have hdet := rc_detN_congr hstep
  obtain ⟨k1, Z, k2, k3⟩ := C68_row_col2 (Dr := Dr) (Dc := Dc) hr hX ⟨rfl, rfl⟩ ⟨rfl, rfl⟩
    (by simp only [hDr, hDc]; rw [if_pos hr, if_pos hr]) h0
  rw [hdet] at k1 k2 k3
  have hfill := fillRowCol_eq (im := 0) ha hb (by simp) junkr junkc
  simp only [List.length_singleton, List.getD_cons_zero] at hfill
  have run : ∀ only, Src.replaceSingle junkr junkc X Q R S [r] only =
      (Src.replaceRowCol2 X Dr Dc r only >>= fun x => .ok (1 * x.1, x.2)) := by
    intro only
    unfold Src.replaceSingle Src.sizeChecks Src.isIncluded
    rw [hX.1, hX.2.1, hb.Qr, hb.Qc, hb.Rr, hb.Rc, hb.Sr, hb.Sc, Res.assert_true ha.2,
      Res.throwIf_false (by simp)]
    simp only [Res.assert_true trivial, and_self, Res.bind_ok, Res.pure_eq, List.length_singleton]
    rw [hfill]
    simp only [Res.bind_ok]
    rfl
  refine ⟨?_, Z, ?_, fun hd => ?_⟩
  · rw [run, k1]; simp
  · rw [run, k2]; simp
  · have h := k3 hd
    have hv : Dc.val r 0 = new r r := by simp only [hDc]; rw [if_pos hr]
    rw [hv] at h
    rw [← h]
    exact ⟨fun h => h.congr fun i hi j hj => (hstep i hi j hj).symm, fun h => h.congr hstep⟩

/-- C68: `compute_det_ratio_replace_rows_cols_safe` returns det(new)/det(old) when the last row and column are
    replaced, also if the remaining matrix is singular. -/
theorem C68_safe {N : ℕ} {g gold : ℕ → ℕ → ℝ} {X Q R S : DMat ℝ} (hN : 0 < N) (hX : IsInvOf X (N + 1) gold)
    (hg : ∀ i < N, ∀ j < N, g i j = gold i j) (hb : UpBlocks N 1 g Q R S) :
    Src.detRatioSafe X Q R S = .ok (detN (N + 1) g / detN (N + 1) gold) := by
  have hr : detN (N + 1) g / detN (N + 1) gold = rcLam ((X.block 0 0 N N).mat N N) ((X.block 0 N N 1).mat N 1)
      (Q.mat N 1) ((X.block N 0 1 N).mat 1 N) (R.mat 1 N) ((X.block N N 1 1).mat 1 1) (S.mat 1 1) := by
    rw [div_eq_iff hX.det_ne_zero]
    have h := (isInvOf_add.mp hX).2.2
    have b1 : toM N N X.val = (X.block 0 0 N N).mat N N := toM_congr fun i _ j _ => by simp [DMat.block_val]
    have b2 : (toM N 1 fun i j => X.val i (N + j)) = (X.block 0 N N 1).mat N 1 :=
      toM_congr fun i _ j _ => by simp [DMat.block_val]
    have b3 : (toM 1 N fun i j => X.val (N + i) j) = (X.block N 0 1 N).mat 1 N :=
      toM_congr fun i _ j _ => by simp [DMat.block_val]
    have b4 : (toM 1 1 fun i j => X.val (N + i) (N + j)) = (X.block N N 1 1).mat 1 1 := rfl
    rw [b1, b2, b3, b4] at h
    have hd := rc_det (Q := Q.mat N 1) (R := R.mat 1 N) (S := S.mat 1 1) h
    unfold detN
    rw [det_toM_add, det_toM_add, ← hd, toM_congr hg]
    congr 2
    · exact toM_congr fun i hi j hj => (hb.Bv i hi j hj).symm
    · exact toM_congr fun i hi j hj => (hb.Cv i hi j hj).symm
    · exact toM_congr fun i hi j hj => (hb.Dv i hi j hj).symm
  unfold Src.detRatioSafe
  rw [hX.1, hX.2.1, hb.Cr, hb.Cc, hb.Br, hb.Bc, hb.Dr, hb.Dc]
  simp only [Nat.add_sub_cancel, and_self, Res.assert_true trivial, Res.bind_ok, Res.pure_eq]
  rw [Res.assert_true (by omega)]
  simp only [Res.bind_ok]
  rw [hr]
  unfold rcLam
  have htr : (X.block N 0 1 N).cols = N := rfl
  have e : ∀ A : DMat ℝ, A.val 0 0 = A.mat 1 1 0 0 := fun A => rfl
  rw [e, DMat.mat_add, DMat.mat_mul (m := 1) rfl, DMat.mat_sub, DMat.mat_mul hb.Cc, DMat.mat_mul (m := N) rfl,
    DMat.mat_mul (m := 1) (by rfl), DMat.mat_mul hb.Cc, DMat.mat_mul (m := N) rfl, Matrix.add_apply, mul11,
    Matrix.sub_apply]

/-- Non-vacuity for C68 (regular case): in the identity of size two the last diagonal element is replaced by 2. -/
example : ∃ (g : ℕ → ℕ → ℝ) (X Dr Dc : DMat ℝ), IsInvOf X (1 + 1) g ∧ Dr.val 0 1 = Dc.val 1 0 ∧
    minorDet 1 g 1 = 1 ∧ detN (1 + 1) (withRowCol g 1 (fun j => Dr.val 0 j) (fun i => Dc.val i 0)) = 2 ∧
    ¬ (|minorDet 1 g 1 / detN (1 + 1) g| < 1 / 10 ^ 10 ∧
      |minorDet 1 g 1 / detN (1 + 1) (withRowCol g 1 (fun j => Dr.val 0 j) (fun i => Dc.val i 0))| <
        1 / 10 ^ 10) := by
  have h1 : minorDet 1 (fun i j => if i = j then (1 : ℝ) else 0) 1 = 1 := by simp [minorDet, detN, skipOne]
  refine ⟨fun i j => if i = j then 1 else 0, ⟨2, 2, fun i j => if i = j then 1 else 0⟩,
    ⟨1, 2, fun _ j => if j = 1 then 2 else 0⟩, ⟨2, 1, fun i _ => if i = 1 then 2 else 0⟩,
    ⟨rfl, rfl, ?_⟩, by simp, h1, ?_, ?_⟩
  · ext i j
    fin_cases i <;> fin_cases j <;> simp [Matrix.mul_apply, Fin.sum_univ_two]
  · simp [detN, Matrix.det_fin_two, withRowCol]
  · rw [h1]
    rintro ⟨h, -⟩
    simp [detN, Matrix.det_fin_two] at h
    norm_num at h

/-- Non-vacuity for C68 (singular case, where the result is right): the row and column (1,0) of [[0,1],[1,0]] are
    replaced by (2,0). -/
example : IsInvOf exSwap2 (1 + 1) exSwap2.val ∧ minorDet 1 exSwap2.val 1 = 0 ∧
    detN (1 + 1) (withRowCol exSwap2.val 1 (fun j => if j = 0 then 2 else 0) (fun i => if i = 0 then 2 else 0)) = -4 := by
  refine ⟨exSwap2_inv, exSwap2_minor, ?_⟩
  simp [detN, Matrix.det_fin_two, withRowCol, exSwap2]; norm_num

/-- Non-vacuity for C68 (several rows and columns): both diagonal elements of the identity are replaced by 2. -/
example : ∃ (g new : ℕ → ℕ → ℝ) (X Q R S : DMat ℝ), IsInvOf X (1 + 1) g ∧ Ascending (1 + 1) [0, 1] ∧
    NaturalBlocks (1 + 1) [0, 1] new Q R S ∧
    ∀ k < 2, detN (1 + 1) (withRowsCols g new ([0, 1].take (k + 1))) ≠ 0 ∧
      minorDet 1 (withRowsCols g new ([0, 1].take k)) ([0, 1].getD k 0) ≠ 0 ∧
      ¬ (|minorDet 1 (withRowsCols g new ([0, 1].take k)) ([0, 1].getD k 0) /
            detN (1 + 1) (withRowsCols g new ([0, 1].take k))| < 1 / 10 ^ 10 ∧
         |minorDet 1 (withRowsCols g new ([0, 1].take k)) ([0, 1].getD k 0) /
            detN (1 + 1) (withRowsCols g new ([0, 1].take (k + 1)))| < 1 / 10 ^ 10) := by
  have hk : kept (1 + 1) [0, 1] = [] := by decide
  refine ⟨fun i j => if i = j then 1 else 0, fun i j => if i = j then 2 else 0,
    ⟨2, 2, fun i j => if i = j then 1 else 0⟩, ⟨0, 2, fun _ _ => 0⟩, ⟨2, 0, fun _ _ => 0⟩,
    ⟨2, 2, fun i j => if i = j then 2 else 0⟩, ⟨rfl, rfl, ?_⟩, ⟨by decide, by decide⟩, ?_, ?_⟩
  · ext i j
    fin_cases i <;> fin_cases j <;> simp [Matrix.mul_apply, Fin.sum_univ_two]
  · refine ⟨rfl, rfl, rfl, rfl, rfl, rfl, ?_, ?_, ?_⟩
    · rw [hk]; intro a h; exact absurd h (by simp)
    · rw [hk]; intro a _ b h; exact absurd h (by simp)
    · intro a h1 b h2
      simp only [List.length_cons, List.length_nil] at h1 h2
      interval_cases a <;> interval_cases b <;> simp
  · intro k hk
    interval_cases k <;>
      (simp [detN, minorDet, skipOne, Matrix.det_fin_two, withRowsCols]; try norm_num)

/-! ### C69 -/

theorem cntIn_dedup {N : ℕ} {rc : List ℕ} (h : ∀ r ∈ rc, r < N) : cntIn rc N = rc.dedup.length := by
  unfold cntIn
  refine List.Perm.length_eq ?_
  rw [List.perm_ext_iff_of_nodup ((List.nodup_range).filter _) (List.nodup_dedup _)]
  intro a
  simp only [List.mem_filter, List.mem_range, decide_eq_true_eq, List.mem_dedup]
  exact ⟨fun h => h.2, fun ha => ⟨h a ha, ha⟩⟩

/-- C69: `generate_indices` returns the indices below `N+M` that are not in the list, in ascending order,
    whatever the output vector held before, for every list of `M` different indices in any order. -/
theorem C69_generate_indices {N M : ℕ} {rc : List ℕ} (old : List ℕ) (hM : rc.length = M) (hd : rc.Nodup)
    (hr : ∀ r ∈ rc, r < N + M) : Src.generateIndices rc N M old = .ok (kept (N + M) rc) := by
  have h1 := cnt_add rc (N + M)
  rw [cntIn_dedup hr, hd.dedup, hM] at h1
  have hk : (kept (N + M) rc).length = N := by
    have : (kept (N + M) rc).length = cntOut rc (N + M) := rfl
    omega
  have hs : ((old ++ List.replicate (N - old.length) 0).take N).length = N := by simp; omega
  unfold Src.generateIndices Src.isIncluded
  rw [Res.assert_true hM, Res.assert_true hr]
  simp only [Res.bind_ok, Res.pure_eq]
  rw [restLoop_eq hk hs (N + M) (le_refl _)]
  simp only [Res.bind_ok]
  rw [Res.assert_true (by omega)]
  simp only [Res.bind_ok]
  rw [List.drop_eq_nil_iff.mpr (by omega), List.append_nil]
  rfl

/-- C69: with a repeated index, or an index out of range, `generate_indices` is undefined. -/
theorem C69_generate_indices_ub {N M : ℕ} {rc : List ℕ} (old : List ℕ) (hM : rc.length = M)
    (h : ¬ rc.Nodup ∨ ∃ r ∈ rc, N + M ≤ r) : Src.generateIndices rc N M old = .ub := by
  unfold Src.generateIndices Src.isIncluded
  rw [Res.assert_true hM]
  by_cases hr : ∀ r ∈ rc, r < N + M
  · have hd : ¬ rc.Nodup := h.resolve_right fun ⟨r, h1, h2⟩ => by have := hr r h1; omega
    rw [Res.assert_true hr]
    simp only [Res.bind_ok, Res.pure_eq]
    have hlt : rc.dedup.length < rc.length := by
      refine lt_of_le_of_ne (List.dedup_sublist rc).length_le fun he => hd ?_
      have := (List.dedup_sublist rc).eq_of_length he
      rw [← this]; exact List.nodup_dedup _
    have h1 := cnt_add rc (N + M)
    rw [cntIn_dedup hr] at h1
    rw [restLoop_ub (N + M) (by omega)]
    rfl
  · rw [Res.assert_false hr]
    rfl

/-- C69: `replace_rows_cols_respect_ordering` turns the matrix into the one whose chosen rows and columns
    are the new ones, all other elements being untouched. -/
theorem C69_ordered {N : ℕ} {rc : List ℕ} {new : ℕ → ℕ → ℝ} {A Q R S : DMat ℝ} (ha : Ascending N rc)
    (hb : NaturalBlocks N rc new Q R S) (hA : A.rows = N ∧ A.cols = N) :
    ∃ B, Src.replaceOrdered A Q R S rc = .ok B ∧ B.rows = N ∧ B.cols = N ∧
      ∀ i < N, ∀ j < N, B.val i j = withRowsCols A.val new rc i j :=
  replaceOrdered_eq ha hb hA

/-- C69: `replace_rows_cols` replaces the same rows and columns and leaves all other elements untouched; `S` is
    taken in ascending order.  Element `a` of a new column goes to row `a` if that row is not one of the chosen ones, and
    otherwise to some row at the end; no two elements go to the same row. -/
theorem C69_exchanged {N : ℕ} {rc : List ℕ} {A Q R S : DMat ℝ} (ha : Ascending (N + rc.length) rc)
    (hA : A.rows = N + rc.length ∧ A.cols = N + rc.length) (hQ : Q.rows = N ∧ Q.cols = rc.length)
    (hR : R.rows = rc.length ∧ R.cols = N) (hS : S.rows = rc.length ∧ S.cols = rc.length) :
    ∃ B, Src.replaceRowsCols A Q R S rc = .ok B ∧ B.rows = N + rc.length ∧ B.cols = N + rc.length ∧
      (∀ i < N + rc.length, ∀ j < N + rc.length, i ∉ rc → j ∉ rc → B.val i j = A.val i j) ∧
      (∀ a < rc.length, ∀ b < rc.length, B.val (rc.getD a 0) (rc.getD b 0) = S.val a b) ∧
      ∃ τ : ℕ → ℕ, (∀ a < N, τ a < N + rc.length ∧ τ a ∉ rc ∧ (a ∉ rc → τ a = a)) ∧
        (∀ a < N, ∀ a' < N, τ a = τ a' → a = a') ∧
        ∀ a < N, ∀ b < rc.length, B.val (τ a) (rc.getD b 0) = Q.val a b ∧
          B.val (rc.getD b 0) (τ a) = R.val b a :=
  replaceRowsCols_eq ha hA hQ hR hS

/-- C69: the two functions take `Q` and `R` in different orders: replacing row and column 0 of a matrix of size three
    with the same arguments, they give different matrices. -/
theorem C69_orders_differ : ∃ (A Q R S B B' : DMat ℝ), A.rows = 3 ∧ A.cols = 3 ∧
    Src.replaceRowsCols A Q R S [0] = .ok B ∧ Src.replaceOrdered A Q R S [0] = .ok B' ∧
    B.val 2 0 = 1 ∧ B'.val 1 0 = 1 ∧ B.val 1 0 = 2 ∧ B'.val 2 0 = 2 := by
  set A : DMat ℝ := ⟨3, 3, fun _ _ => 0⟩
  set Q : DMat ℝ := ⟨2, 1, fun i _ => if i = 0 then 1 else 2⟩
  set R : DMat ℝ := ⟨1, 2, fun _ j => if j = 0 then 1 else 2⟩
  set S : DMat ℝ := ⟨1, 1, fun _ _ => 0⟩
  have hk : kept 3 [0] = [1, 2] := by decide
  obtain ⟨B', h1, -, -, h2⟩ := C69_ordered (N := 3) (rc := [0]) (A := A) (Q := Q) (R := R) (S := S)
    (new := fun i j => if i + j = 1 then 1 else if i + j = 2 then 2 else 0)
    ⟨by decide, by decide⟩
    ⟨rfl, rfl, rfl, rfl, rfl, rfl,
      by
        unfold keptAt
        rw [hk]
        intro a h1 b h2
        simp only [List.length_cons, List.length_nil] at h1 h2
        interval_cases a <;> interval_cases b <;> simp [Q],
      by
        unfold keptAt
        rw [hk]
        intro a h1 b h2
        simp only [List.length_cons, List.length_nil] at h1 h2
        interval_cases a <;> interval_cases b <;> simp [R],
      by
        intro a h1 b h2
        simp only [List.length_cons, List.length_nil] at h1 h2
        interval_cases a
        interval_cases b
        simp [S]⟩ ⟨rfl, rfl⟩
  obtain ⟨B, k1, -, -, -, -, τ, t1, t2, t3⟩ := C69_exchanged (N := 2) (rc := [0]) (A := A) (Q := Q) (R := R) (S := S)
    ⟨by decide, by decide⟩ ⟨rfl, rfl⟩ ⟨rfl, rfl⟩ ⟨rfl, rfl⟩ ⟨rfl, rfl⟩
  have e1 : τ 1 = 1 := (t1 1 (by omega)).2.2 (by decide)
  have e0 : τ 0 = 2 := by
    have h := t1 0 (by omega)
    have h' : τ 0 ≠ 1 := fun h => absurd (t2 0 (by omega) 1 (by omega) (h.trans e1.symm)) (by omega)
    have h0 : τ 0 ≠ 0 := by simpa using h.2.1
    have := h.1
    simp only [List.length_singleton] at this
    omega
  refine ⟨A, Q, R, S, B, B', rfl, rfl, k1, h1, ?_, ?_, ?_, ?_⟩
  · have := (t3 0 (by omega) 0 (by simp)).1
    rw [e0] at this; simpa [Q] using this
  · rw [h2 1 (by omega) 0 (by omega)]; simp [withRowsCols]
  · have := (t3 1 (by omega) 0 (by simp)).1
    rw [e1] at this; simpa [Q] using this
  · rw [h2 2 (by omega) 0 (by omega)]; simp [withRowsCols]

/-- C68 with C69: the matrix maintained by replacing one row and column after another is the inverse of the matrix
    written by `replace_rows_cols_respect_ordering` with the same arguments. -/
theorem C68_consistent_partial {n : ℕ} {rc : List ℕ} {new : ℕ → ℕ → ℝ} {A X Q R S : DMat ℝ} (eps : ℝ)
    (junkr junkc : ℕ → ℝ) (hne : rc ≠ []) (ha : Ascending (n + 1) rc)
    (hb : NaturalBlocks (n + 1) rc new Q R S) (hA : A.rows = n + 1 ∧ A.cols = n + 1)
    (hX : IsInvOf X (n + 1) A.val)
    (hreg : ∀ k < rc.length, detN (n + 1) (withRowsCols A.val new (rc.take (k + 1))) ≠ 0 ∧
      minorDet n (withRowsCols A.val new (rc.take k)) (rc.getD k 0) ≠ 0 ∧
      ¬ (|minorDet n (withRowsCols A.val new (rc.take k)) (rc.getD k 0) /
            detN (n + 1) (withRowsCols A.val new (rc.take k))| < eps ∧
         |minorDet n (withRowsCols A.val new (rc.take k)) (rc.getD k 0) /
            detN (n + 1) (withRowsCols A.val new (rc.take (k + 1)))| < eps)) :
    ∃ lam Z B, Src.replaceSuccessive eps junkr junkc X Q R S rc false = .ok (lam, Z) ∧
      Src.replaceOrdered A Q R S rc = .ok B ∧ lam = detN (n + 1) B.val / detN (n + 1) A.val ∧
      IsInvOf Z (n + 1) B.val := by
  obtain ⟨Z, h1, h2⟩ := C68_successive_partial eps junkr junkc hne ha hb hX hreg
  obtain ⟨B, k1, -, -, k2⟩ := C69_ordered ha hb hA
  refine ⟨_, Z, B, h1, k1, ?_, h2.congr fun i hi j hj => (k2 i hi j hj).symm⟩
  rw [rc_detN_congr k2]

/-- Non-vacuity for C69: of four indices the list [3, 1] leaves 0 and 2. -/
example : Src.generateIndices [3, 1] 2 2 [7] = .ok [0, 2] :=
  (C69_generate_indices [7] rfl (by decide) (by decide)).trans
    (congrArg Res.ok (by decide))

end CTInt
