import Verif.Proofs.Removal

/-!
# Properties C12 (position lists), C13, C14 : removing arbitrary rows and columns

`kept n rs` is the ascending list of positions below `n` not in `rs`, `keptAt n rs i` its `i`-th entry
(`Verif.Spec.Deletion`); `exchangeAll l a` is the array `a` after the exchanges listed in `l`
(`Verif.Spec.Exchange`).
-/

set_option linter.all false

open Matrix

namespace CTInt

variable {K : Type} [Field K]

/-- C14: exchanging, for an ascending list of positions, the `i`-th chosen position from the end with the
    `i`-th slot from the end brings exactly the chosen elements, in their order, into the last slots
    and leaves exactly the unchosen ones (in some order) in front. -/
theorem C14_swap_to_end {α : Type} {N M : ℕ} {ps : List ℕ} (hl : ps.length = M)
    (hp : Ascending (N + M) ps) (a : ℕ → α) :
    (∀ j < M, exchangeAll (Src.swapList M (N + M) ps) a (N + j) = a (ps.getD j 0)) ∧
    ((List.range N).map (exchangeAll (Src.swapList M (N + M) ps) a)).Perm
      ((kept (N + M) ps).map a) := by
  subst hl
  obtain ⟨h0, h1, h2⟩ := sw_ascending hp
  refine ⟨fun j hj => by rw [exchangeAll_eq, h1 j hj], ?_⟩
  have e : (List.range N).map (exchangeAll (Src.swapList ps.length (N + ps.length) ps) a) =
      ((List.range N).map (permOf (Src.swapList ps.length (N + ps.length) ps))).map a := by
    rw [List.map_map]
    exact List.map_congr_left fun i _ => exchangeAll_eq _ _ _
  rw [e]
  apply List.Perm.map
  have hnd : ((List.range N).map (permOf (Src.swapList ps.length (N + ps.length) ps))).Nodup :=
    List.nodup_range.map (Equiv.injective _)
  refine (hnd.subperm ?_).perm_of_length_le ?_
  · intro x hx
    simp only [List.mem_map, List.mem_range] at hx
    obtain ⟨i, hi, rfl⟩ := hx
    have := h2 i hi
    simp [kept, this.1, this.2]
  · have := kept_length (N := N) hp.rev.1 (by simpa using hp.rev.2)
    have e : kept (N + ps.length) ps.reverse = kept (N + ps.length) ps := by simp [kept]
    rw [List.length_reverse, e] at this
    rw [this]; simp

/-- C14: rows and columns of a stored matrix are exchanged together, exactly as the arrays are. -/
theorem C14_matrix_swaps {N M : ℕ} {ps : List ℕ} (A : DMat K) :
    (Src.applySwaps (Src.swapList M (N + M) ps) A).rows = A.rows ∧
    (Src.applySwaps (Src.swapList M (N + M) ps) A).cols = A.cols ∧
    ∀ i j, (Src.applySwaps (Src.swapList M (N + M) ps) A).val i j =
      A.val (exchangeAll (Src.swapList M (N + M) ps) id i)
        (exchangeAll (Src.swapList M (N + M) ps) id j) := by
  refine ⟨applySwaps_rows _ _, applySwaps_cols _ _, fun i j => ?_⟩
  rw [applySwaps_val, exchangeAll_eq, exchangeAll_eq]; rfl

/-- Non-vacuity for C14: removing positions 0 and 2 of four. -/
example : Ascending (2 + 2) [0, 2] ∧ kept 4 [0, 2] = [1, 3] ∧
    (List.range 4).map (exchangeAll (Src.swapList 2 4 [0, 2]) id) = [3, 1, 0, 2] := by
  refine ⟨⟨by decide, by decide⟩, by decide, by decide⟩

/-- C13: the value returned for ascending lists of rows and columns is det(G')/det(G), where `G'` is `G`
    with these rows and columns deleted and the order of the others kept, sign included. -/
theorem C13_inc_detRatioDownRC {N M : ℕ} {g : ℕ → ℕ → K} {X : DMat K} {rs cs : List ℕ} (hM : 0 < M)
    (hX : IsInvOf X (N + M) g) (hrl : rs.length = M) (hcl : cs.length = M)
    (hr : Ascending (N + M) rs) (hc : Ascending (N + M) cs) :
    Inc.detRatioDownRC M rs cs X = .ok
      (detN N (fun i j => g (keptAt (N + M) rs i) (keptAt (N + M) cs j)) / detN (N + M) g) := by
  rw [← jacobi hX hr hc hrl hcl]
  unfold Inc.detRatioDownRC
  have hb : ∀ j < M, rs.getD j 0 < N + M ∧ cs.getD j 0 < N + M := by
    intro j hj
    rw [List.getD_eq_getElem _ _ (by omega), List.getD_eq_getElem _ _ (by omega)]
    exact ⟨hr.2 _ (List.getElem_mem _), hc.2 _ (List.getElem_mem _)⟩
  rw [hX.1, hX.2.1]
  simp only [Res.assert_true hb, Res.assert_true (show M ≤ rs.length by omega),
    Res.assert_true (show M ≤ cs.length by omega), Res.assert_true hM, Res.assert_true trivial,
    Res.bind_ok, Res.pure_eq]
  congr 1
  have e : DMat.det (⟨M, M, fun i j => X.val (cs.getD i 0) (rs.getD j 0)⟩ : DMat K) =
    detN M (fun i j => X.val (cs.getD i 0) (rs.getD j 0)) := rfl
  rw [e]
  split_ifs with h
  · rw [Even.neg_one_pow (Nat.even_iff.mpr h), one_mul]
  · rw [Odd.neg_one_pow (Nat.odd_iff.mpr (by omega)), neg_one_mul]

/-- C12 (src/): the ratio for an ascending list of positions removed from rows and columns. -/
theorem C12_src_detRatioDown {N M : ℕ} {g : ℕ → ℕ → K} {X : DMat K} {ps : List ℕ} (hM : 0 < M)
    (hX : IsInvOf X (N + M) g) (hl : ps.length = M) (hp : Ascending (N + M) ps) :
    Src.detRatioDown M ps X = .ok
      (detN N (fun i j => g (keptAt (N + M) ps i) (keptAt (N + M) ps j)) / detN (N + M) g) := by
  rw [← jacobi hX hp hp hl hl]
  unfold Src.detRatioDown
  have hb : ∀ j < M, ps.getD j 0 < N + M := by
    intro j hj
    rw [List.getD_eq_getElem _ _ (by omega)]
    exact hp.2 _ (List.getElem_mem _)
  rw [hX.1, hX.2.1]
  simp only [Res.assert_true hb, Res.assert_true (show M ≤ ps.length by omega), Res.assert_true hM,
    Res.assert_true trivial, Res.bind_ok, Res.pure_eq]
  congr 1
  simp [DMat.det, detN]

/-- C12 (src/): removing an ascending list of positions.  The returned value is det(G')/det(G); the matrix
    is the inverse of the remaining matrix, in the order described by the returned exchanges,
    which are those of C14. -/
theorem C12_src_inverseDown {N M : ℕ} {g : ℕ → ℕ → K} {X : DMat K} {ps : List ℕ} (junk : ℕ → ℕ → K)
    (hM : 0 < M) (hX : IsInvOf X (N + M) g) (hl : ps.length = M) (hp : Ascending (N + M) ps)
    (h : detN N (fun i j => g (keptAt (N + M) ps i) (keptAt (N + M) ps j)) ≠ 0) :
    ∃ Y, Src.inverseDown junk M ps X = .ok
        (detN N (fun i j => g (keptAt (N + M) ps i) (keptAt (N + M) ps j)) / detN (N + M) g, Y,
          Src.swapList M (N + M) ps) ∧
      IsInvOf Y N (fun i j => g (exchangeAll (Src.swapList M (N + M) ps) id i)
        (exchangeAll (Src.swapList M (N + M) ps) id j)) := by
  have hjac := jacobi hX hp hp hl hl
  simp only [sub_self, Int.natAbs_zero, List.map_const', List.sum_replicate, smul_zero, pow_zero,
    one_mul] at hjac
  have hb : ∀ j < M, ps.getD j 0 < N + M := by
    intro j hj
    rw [List.getD_eq_getElem _ _ (by omega)]
    exact hp.2 _ (List.getElem_mem _)
  subst hl
  obtain ⟨h0, h1, h2⟩ := sw_ascending hp
  have hX' := hX.applySwaps h0
  have hd := detN_down hX'
  have hH : (DMat.block (Src.applySwaps (Src.swapList ps.length (N + ps.length) ps) X) N N
      ps.length ps.length).det = detN ps.length (fun i j => X.val (ps.getD i 0) (ps.getD j 0)) := by
    rw [DMat.det_eq (n := ps.length) rfl]
    unfold detN; congr 1
    exact toM_congr fun i hi j hj => by
      rw [DMat.block_val, applySwaps_val, h1 i hi, h1 j hj]
  have hne : detN N (fun i j => g (permOf (Src.swapList ps.length (N + ps.length) ps) i)
      (permOf (Src.swapList ps.length (N + ps.length) ps) j)) ≠ 0 := by
    intro h'
    rw [h', zero_div, hH, hjac, div_eq_zero_iff] at hd
    exact hd.elim h hX.det_ne_zero
  unfold Src.inverseDown
  rw [hX.1, hX.2.1]
  have e1 : ¬ (N + ps.length < ps.length) := by omega
  have e2 : ¬ (ps.length = 0) := by omega
  simp only [Res.throwIf_false e1, Res.throwIf_false e2, Res.assert_true hb,
    Res.assert_true (show True ∧ ps.length ≤ ps.length from ⟨trivial, le_refl _⟩),
    Res.bind_ok, Res.pure_eq, show N + ps.length - ps.length = N by omega, exchangeAll_eq, id]
  by_cases hN : N = 0
  · subst hN
    simp only [if_true]
    refine ⟨DMat.conservativeResize junk (Src.applySwaps (Src.swapList ps.length (0 + ps.length) ps) X) 0 0,
      ?_, rfl, rfl, toM_zero_mul_eq_one _ _⟩
    · congr 2
      rw [← hjac, ← hH]
      rw [DMat.det_eq (n := ps.length) (applySwaps_rows _ _ |>.trans (hX.1.trans (Nat.zero_add _))),
        DMat.det_eq (n := ps.length) rfl, DMat.mat, DMat.mat]
      simp only [DMat.block, Nat.zero_add]
  · simp only [if_neg hN]
    rw [hH, hjac]
    refine ⟨_, rfl, ?_⟩
    refine down_inverse hX' hne rfl rfl fun i hi j hj => ?_
    rw [DMat.conservativeResize_val (by simp [applySwaps_rows, applySwaps_cols, hX.1, hX.2.1] <;> omega),
      DMat.setBlock_in (by simp <;> omega)]
    simp [DMat.sub_val, DMat.add_val, DMat.neg_val, DMat.block_val, DMat.mul_val, Finset.sum_neg_distrib,
      sub_eq_add_neg]

/-- C12 (src/): asking to remove more than there is, or nothing, is refused with `logic_error`. -/
theorem C12_src_inverseDown_refuses {M : ℕ} {ps : List ℕ} {X : DMat K} (junk : ℕ → ℕ → K)
    (h : X.rows < M ∨ M = 0) :
    Src.inverseDown junk M ps X = .throw .logicError := by
  unfold Src.inverseDown
  by_cases h1 : X.rows < M
  · simp only [Res.throwIf_true h1, Res.bind_throw]
  · simp only [Res.throwIf_false h1, Res.throwIf_true (show M = 0 by omega), Res.bind_ok,
      Res.bind_throw]

/-- The row/column swap loop of include/ in closed form. -/
theorem swapLoop_spec {M n : ℕ} (rs cs : List ℕ) (X : DMat K) :
    (Inc.swapLoop M n rs cs X).rows = X.rows ∧ (Inc.swapLoop M n rs cs X).cols = X.cols ∧
    ∀ i j, (Inc.swapLoop M n rs cs X).val i j =
      X.val (permOf (Src.swapList M n cs) i) (permOf (Src.swapList M n rs) j) := by
  unfold Inc.swapLoop Src.swapList
  generalize List.range M = l
  induction l generalizing X with
  | nil => exact ⟨rfl, rfl, fun i j => rfl⟩
  | cons k l ih =>
    rw [List.foldl_cons]
    obtain ⟨h1, h2, h3⟩ := ih ((X.swapCol (rs.getD (M - 1 - k) 0) (n - 1 - k)).swapRow
      (cs.getD (M - 1 - k) 0) (n - 1 - k))
    refine ⟨h1, h2, fun i j => ?_⟩
    rw [h3, List.map_cons, List.map_cons, permOf_cons_apply, permOf_cons_apply]
    rfl

/-- C12 (include/): removing ascending lists of rows and columns leaves the inverse of the remaining
    matrix; rows and columns of the remaining matrix are each ordered as by the exchanges of C14. -/
theorem C12_inc_inverseDownRC {N M : ℕ} {g : ℕ → ℕ → K} {X : DMat K} {rs cs : List ℕ}
    (junk : ℕ → ℕ → K) (hM : 0 < M) (hX : IsInvOf X (N + M) g) (hrl : rs.length = M)
    (hcl : cs.length = M) (hr : Ascending (N + M) rs) (hc : Ascending (N + M) cs)
    (h : detN N (fun i j => g (keptAt (N + M) rs i) (keptAt (N + M) cs j)) ≠ 0) :
    ∃ Y, Inc.inverseDownRC junk M rs cs X = .ok Y ∧
      IsInvOf Y N (fun i j => g (exchangeAll (Src.swapList M (N + M) rs) id i)
        (exchangeAll (Src.swapList M (N + M) cs) id j)) := by
  have hjac := jacobi hX hr hc hrl hcl
  have hb : ∀ j < M, rs.getD j 0 < N + M ∧ cs.getD j 0 < N + M := by
    intro j hj
    rw [List.getD_eq_getElem _ _ (by omega), List.getD_eq_getElem _ _ (by omega)]
    exact ⟨hr.2 _ (List.getElem_mem _), hc.2 _ (List.getElem_mem _)⟩
  obtain ⟨r0, r1, r2⟩ := sw_ascending (hrl.symm ▸ hr : Ascending (N + rs.length) rs)
  obtain ⟨c0, c1, c2⟩ := sw_ascending (hcl.symm ▸ hc : Ascending (N + cs.length) cs)
  rw [hrl] at r0 r1 r2
  rw [hcl] at c0 c1 c2
  obtain ⟨s1, s2, s3⟩ := swapLoop_spec (M := M) (n := N + M) rs cs X
  have hX' : IsInvOf (Inc.swapLoop M (N + M) rs cs X) (N + M)
      (fun i j => g (permOf (Src.swapList M (N + M) rs) i)
        (permOf (Src.swapList M (N + M) cs) j)) := by
    refine ((hX.rows_permOf r0).cols_permOf c0).congr_left (s1.trans hX.1) (s2.trans hX.2.1) ?_
    intro i hi j hj
    rw [s3]
  have hd := detN_down hX'
  have hH : (DMat.block (Inc.swapLoop M (N + M) rs cs X) N N M M).det =
      detN M (fun i j => X.val (cs.getD i 0) (rs.getD j 0)) := by
    rw [DMat.det_eq (n := M) rfl]
    unfold detN; congr 1
    exact toM_congr fun i hi j hj => by
      rw [DMat.block_val, s3, c1 i hi, r1 j hj]
  have hne : detN N (fun i j => g (permOf (Src.swapList M (N + M) rs) i)
      (permOf (Src.swapList M (N + M) cs) j)) ≠ 0 := by
    intro h'
    rw [h', zero_div, hH] at hd
    rw [hd, mul_zero] at hjac
    rw [eq_comm, div_eq_zero_iff] at hjac
    exact hjac.elim h hX.det_ne_zero
  unfold Inc.inverseDownRC
  rw [hX.1, hX.2.1]
  have e1 : ¬ (N + M < M) := by omega
  have e2 : ¬ (M = 0) := by omega
  simp only [Res.throwIf_false e1, Res.throwIf_false e2, Res.assert_true hb, Res.assert_true trivial,
    Res.assert_true (show M ≤ rs.length by omega), Res.assert_true (show M ≤ cs.length by omega),
    Res.bind_ok, Res.pure_eq, show N + M - M = N by omega, exchangeAll_eq, id]
  refine ⟨_, rfl, ?_⟩
  by_cases hN : 0 < N
  · rw [if_pos hN]
    refine down_inverse hX' hne rfl rfl fun i hi j hj => ?_
    rw [DMat.conservativeResize_val (by simp [s1, s2, hX.1, hX.2.1] <;> omega),
      DMat.setBlock_in (by simp <;> omega)]
    simp [DMat.sub_val, DMat.block_val]
  · have : N = 0 := by omega
    subst this
    exact ⟨rfl, rfl, toM_zero_mul_eq_one _ _⟩

/-- Non-vacuity for C12, C13: a 2 × 2 matrix, row 0 and column 1 removed; the remaining entry is 3
    and the ratio is `3 / (1*4-2*3)`. -/
example : ∃ (g : ℕ → ℕ → ℚ) (X : DMat ℚ), IsInvOf X (1 + 1) g ∧ Ascending (1 + 1) [0] ∧
    Ascending (1 + 1) [1] ∧
    detN 1 (fun i j => g (keptAt (1 + 1) [0] i) (keptAt (1 + 1) [1] j)) = 3 ∧ detN (1 + 1) g = -2 := by
  refine ⟨fun i j => if i = 0 then (if j = 0 then 1 else 2) else (if j = 0 then 3 else 4),
    ⟨2, 2, fun i j => if i = 0 then (if j = 0 then -2 else 1) else (if j = 0 then 3 / 2 else -1 / 2)⟩,
    ⟨rfl, rfl, ?_⟩, ⟨by decide, by decide⟩, ⟨by decide, by decide⟩, ?_, ?_⟩
  · ext i j
    fin_cases i <;> fin_cases j <;> simp [Matrix.mul_apply, Fin.sum_univ_two] <;> norm_num
  · have h1 : keptAt 2 [0] 0 = 1 := by decide
    have h2 : keptAt 2 [1] 0 = 0 := by decide
    simp [detN, h1, h2]
  · simp [detN, Matrix.det_fin_two]; norm_num

end CTInt
