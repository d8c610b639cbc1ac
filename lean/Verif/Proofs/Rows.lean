import Verif.Spec.Config
import Verif.Proofs.Batch
import Mathlib.Logic.Equiv.Fin.Basic

/-!
# Determinants of matrices given by a list of operator pairs
-/

set_option linter.all false

open Matrix

namespace CTInt

/-- A rearranged list is the list read through a bijection of positions. -/
theorem perm_equiv {α : Type} {l l' : List α} (h : l.Perm l') :
    ∃ σ : Fin l.length ≃ Fin l'.length, ∀ i, l'.get (σ i) = l.get i := by
  induction h with
  | nil => exact ⟨Equiv.refl _, fun i => rfl⟩
  | @cons a l l' _ ih =>
    obtain ⟨σ, hσ⟩ := ih
    refine ⟨(finSuccEquiv l.length).trans ((Equiv.optionCongr σ).trans (finSuccEquiv l'.length).symm), ?_⟩
    intro i
    refine Fin.cases ?_ (fun i => ?_) i
    · simp
    · have := hσ i
      simpa using this
  | swap a b l =>
    refine ⟨Equiv.swap (0 : Fin (l.length + 2)) 1, ?_⟩
    intro i
    refine Fin.cases ?_ (fun i => Fin.cases ?_ (fun i => ?_) i) i
    · simp
    · simp [show (Fin.succ 0 : Fin (l.length + 2)) = 1 from rfl]
    · rw [Equiv.swap_apply_of_ne_of_ne]
      · rfl
      · exact Fin.succ_ne_zero _
      · intro h
        exact Fin.succ_ne_zero i (Fin.succ_injective _ h)
  | trans _ _ ih1 ih2 =>
    obtain ⟨σ, hσ⟩ := ih1
    obtain ⟨τ, hτ⟩ := ih2
    exact ⟨σ.trans τ, fun i => by rw [Equiv.trans_apply, hτ, hσ]⟩

variable {K : Type} [Field K]

/-- Determinants of matrices that are a diagonal plus a kernel do not depend on the order of the list. -/
theorem detN_list_perm {α : Type} [Inhabited α] (D : α → K) (g : α → α → K) {l l' : List α} (h : l.Perm l') :
    detN l.length (fun i j => (if i = j then D (l.getD j default) else 0) + g (l.getD i default) (l.getD j default))
    = detN l'.length
      (fun i j => (if i = j then D (l'.getD j default) else 0) + g (l'.getD i default) (l'.getD j default)) := by
  obtain ⟨σ, hσ⟩ := perm_equiv h
  unfold detN
  rw [← Matrix.det_submatrix_equiv_self σ]
  congr 1
  ext i j
  have e : ∀ i : Fin l.length, l'.getD (σ i) default = l.getD i default := by
    intro i
    have := hσ i
    rw [List.get_eq_getElem, List.get_eq_getElem] at this
    rw [List.getD_eq_getElem _ _ (σ i).2, List.getD_eq_getElem _ _ i.2]
    exact this
  rw [Matrix.submatrix_apply, toM_apply, toM_apply, e, e]
  congr 1
  by_cases hij : i = j
  · simp [hij]
  · rw [if_neg (fun h => hij (Fin.ext h)), if_neg (fun h => hij (σ.injective (Fin.ext h)))]

variable [DecidableEq K]

theorem detN_congr {n : ℕ} {g g' : ℕ → ℕ → K} (h : ∀ i < n, ∀ j < n, g i j = g' i j) : detN n g = detN n g' := by
  unfold detN
  rw [toM_congr h]

theorem detA_perm (NI : K) (G0 : Op → Op → K) {l l' : List (OpRow K)} (h : l.Perm l') :
    detN l.length (rowA NI G0 l) = detN l'.length (rowA NI G0 l') := by
  have := detN_list_perm (fun r : OpRow K => specF NI r.al) (fun a b => - (G0 a.an b.cr * (specF NI b.al - 1))) h
  unfold rowA specA
  simpa only [← sub_eq_add_neg] using this

theorem detG_perm (G0 : Op → Op → K) {l l' : List (OpRow K)} (h : l.Perm l') :
    detN l.length (rowG G0 l) = detN l'.length (rowG G0 l') := by
  have := detN_list_perm (fun r : OpRow K => - r.al) (fun a b => G0 a.an b.cr) h
  unfold rowG specG
  have e : ∀ l : List (OpRow K), (fun i j => (if i = j then - (l.getD j default).al else 0) +
      G0 (l.getD i default).an (l.getD j default).cr) =
      fun i j => G0 (l.getD i default).an (l.getD j default).cr - if i = j then (l.getD j default).al else 0 := by
    intro l
    funext i j
    split_ifs <;> ring
  rw [e, e] at this
  exact this

/-- Non-interacting pairs at the end do not change det A. -/
theorem detA_append_NI (NI : K) (G0 : Op → Op → K) (l m : List (OpRow K)) (hm : ∀ r ∈ m, r.al = NI) :
    detN (l ++ m).length (rowA NI G0 (l ++ m)) = detN l.length (rowA NI G0 l) := by
  rw [List.length_append]
  have hcol : ∀ i < l.length + m.length, ∀ j < m.length,
      rowA NI G0 (l ++ m) i (l.length + j) = if i = l.length + j then 1 else 0 := by
    intro i hi j hj
    have : ((l ++ m).getD (l.length + j) default).al = NI := by
      rw [List.getD_append_right _ _ _ _ (by omega), Nat.add_sub_cancel_left, List.getD_eq_getElem _ _ hj]
      exact hm _ (List.getElem_mem _)
    unfold rowA specA
    simp only [this, specF_NI]
    simp
  have e12 : (toM l.length m.length fun i j => rowA NI G0 (l ++ m) i (l.length + j)) = 0 := by
    ext i j
    rw [toM_apply, hcol i (by omega) j j.2, if_neg (by omega)]; rfl
  have e22 : (toM m.length m.length fun i j => rowA NI G0 (l ++ m) (l.length + i) (l.length + j)) = 1 := by
    ext i j
    rw [toM_apply, hcol _ (by omega) j j.2, Matrix.one_apply]
    congr 1; simp [Fin.ext_iff]
  unfold detN
  rw [det_toM_add, e12, e22, Matrix.det_fromBlocks_zero₁₂, Matrix.det_one, mul_one]
  congr 1
  refine toM_congr fun i hi j hj => ?_
  unfold rowA specA
  simp only []
  rw [List.getD_append _ _ _ _ hi, List.getD_append _ _ _ _ hj]

/-- The factor (1-f) of one operator pair; 1 for a non-interacting one. -/
def oneMinusF (NI a : K) : K := if a = NI then 1 else 1 - specF NI a

theorem oneMinusF_ne_zero {NI a : K} (h : OkAlpha NI a) : oneMinusF NI a ≠ 0 := by
  unfold oneMinusF
  rcases h with rfl | h
  · simp
  · rw [if_neg h.1, h.one_sub_specF]
    exact one_div_ne_zero (sub_ne_zero.mpr h.2.2.symm)

/-- det A of interacting pairs is det(G0 - α) times the product of (1-f). -/
theorem detA_good (NI : K) (G0 : Op → Op → K) {l : List (OpRow K)} (h : ∀ r ∈ l, GoodAlpha NI r.al) :
    detN l.length (rowA NI G0 l) = detN l.length (rowG G0 l) * (l.map fun r => oneMinusF NI r.al).prod := by
  have hg : ∀ j < l.length, GoodAlpha NI (l.getD j default).al := by
    intro j hj
    rw [List.getD_eq_getElem _ _ hj]; exact h _ (List.getElem_mem _)
  have e : toM l.length l.length (rowA NI G0 l) =
      toM l.length l.length (rowG G0 l) * diagonal fun j : Fin l.length => oneMinusF NI (l.getD j default).al := by
    ext i j
    rw [Matrix.mul_diagonal, toM_apply, toM_apply]
    have hj := hg j j.2
    unfold rowA rowG specA specG oneMinusF
    simp only []
    rw [if_neg hj.1, hj.specF]
    have h1 := sub_ne_zero.mpr hj.2.2
    by_cases hij : (i : ℕ) = j
    · simp only [hij, if_true]; field_simp; ring
    · simp only [if_neg hij]; ring
  unfold detN
  rw [e, Matrix.det_mul, Matrix.det_diagonal]
  congr 1
  rw [← List.prod_ofFn]
  congr 1
  apply List.ext_getElem
  · simp
  · intro i h1 h2
    simp at h1 h2
    rw [List.getElem_ofFn, List.getElem_map]
    simp only []
    rw [List.getD_eq_getElem _ _ h2]

/-- det A with non-interacting pairs anywhere. -/
theorem detA_rows (NI : K) (G0 : Op → Op → K) {l : List (OpRow K)} (h : ∀ r ∈ l, OkAlpha NI r.al) :
    detN l.length (rowA NI G0 l) =
      detN (l.filter fun r => decide (r.al ≠ NI)).length (rowG G0 (l.filter fun r => decide (r.al ≠ NI))) *
        (l.map fun r => oneMinusF NI r.al).prod := by
  have hp := List.filter_append_perm (fun r : OpRow K => decide (r.al ≠ NI)) l
  rw [detA_perm NI G0 hp.symm, detA_append_NI, detA_good]
  · rw [← (hp.map fun r => oneMinusF NI r.al).prod_eq, List.map_append, List.prod_append]
    have : ((l.filter fun r => !decide (r.al ≠ NI)).map fun r => oneMinusF NI r.al).prod = 1 := by
      apply List.prod_eq_one
      intro x hx
      obtain ⟨r, hr, rfl⟩ := List.mem_map.mp hx
      have : r.al = NI := by simpa using (List.mem_filter.mp hr).2
      simp [oneMinusF, this]
    rw [this, mul_one]
  · intro r hr
    have := List.mem_filter.mp hr
    exact (h r this.1).resolve_left (by simpa using this.2)
  · intro r hr
    simpa using (List.mem_filter.mp hr).2

/-! ### The rows of an `InvA` object -/

theorem rowList_length (A : InvA K) : A.rowList.length = A.cr.length := by simp [InvA.rowList]

theorem rowList_getElem (A : InvA K) {i : ℕ} (h : i < A.cr.length) (h' : i < A.rowList.length) :
    A.rowList[i] = A.rowAt i := by simp [InvA.rowList]

theorem rowList_getD (A : InvA K) {i : ℕ} (h : i < A.cr.length) : A.rowList.getD i default = A.rowAt i := by
  rw [List.getD_eq_getElem _ _ (by rw [rowList_length]; exact h), rowList_getElem A h]

/-- The operator pairs with other fields. -/
noncomputable def InvA.rowCur (A : InvA K) (cur : ℕ → K) : List (OpRow K) :=
  (List.range A.cr.length).map fun i => { A.rowAt i with al := cur i }

theorem detAF_rows (NI : K) (G0 : Op → Op → K) {A : InvA K} {n : ℕ} (hA : A.Aligned n) (cur : ℕ → K) :
    detAF NI G0 A n cur = detN (A.rowCur cur).length (rowA NI G0 (A.rowCur cur)) := by
  have hl : (A.rowCur cur).length = n := by simp [InvA.rowCur, hA.cr]
  have hg : ∀ i < n, (A.rowCur cur).getD i default = { A.rowAt i with al := cur i } := by
    intro i hi
    rw [List.getD_eq_getElem _ _ (by omega)]
    simp [InvA.rowCur]
  rw [hl]
  unfold detAF
  refine detN_congr fun i hi j hj => ?_
  unfold rowA specA specG0
  simp only []
  rw [hg i hi, hg j hj]
  rfl

theorem flavorA_rows (NI : K) (G0 : Op → Op → K) {A : InvA K} {n : ℕ} (hA : A.Aligned n) {i j : ℕ}
    (hi : i < n) (hj : j < n) :
    flavorA NI G0 A.an A.cr A.al i j = rowA NI G0 A.rowList i j := by
  unfold flavorA rowA specA specG0
  simp only []
  rw [rowList_getD A (i := i) (by rw [hA.cr]; exact hi), rowList_getD A (i := j) (by rw [hA.cr]; exact hj)]
  rfl

theorem rowCur_al (A : InvA K) : A.rowCur (fun i => A.al.getD i 0) = A.rowList := rfl

end CTInt
