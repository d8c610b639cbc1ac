import Verif.Spec.Weight
import Verif.Proofs.Replace
import Mathlib.LinearAlgebra.Matrix.SchurComplement
import Mathlib.Algebra.BigOperators.Field
import Mathlib.Tactic.LinearCombination
import Mathlib.Tactic.Abel

/-!
# The algebra of submatrix updates
-/

set_option linter.all false

open Matrix

namespace CTInt

section matrices
variable {K : Type} [Field K] {n m : Type} [Fintype n] [Fintype m] [DecidableEq n] [DecidableEq m]

/-- A = F - G0 (F-1) as a matrix. -/
def AM (f : n → K) (G0 : Matrix n n K) : Matrix n n K := diagonal f - G0 * diagonal (fun i => f i - 1)

/-- Selection of the positions `p`. -/
def selM (p : m → n) : Matrix n m K := Matrix.of fun i l => if i = p l then 1 else 0

theorem mul_selM (X : Matrix n n K) (p : m → n) : X * selM p = X.submatrix id p := by
  ext i l; simp [selM, Matrix.mul_apply]

theorem selMT_mul (X : Matrix n n K) (p : m → n) : (selM p : Matrix n m K)ᵀ * X = X.submatrix p id := by
  ext i l; simp [selM, Matrix.mul_apply]

theorem selMT_mul' {l : Type} (X : Matrix n l K) (p : m → n) :
    (selM p : Matrix n m K)ᵀ * X = X.submatrix p id := by
  ext i l; simp [selM, Matrix.mul_apply]

theorem selM_diag {p : m → n} (hp : Function.Injective p) {d : n → K} (hd : ∀ i, i ∉ Set.range p → d i = 0) :
    diagonal d = selM p * diagonal (fun l => d (p l)) * (selM p : Matrix n m K)ᵀ := by
  ext i j
  simp only [selM, Matrix.mul_apply, Matrix.diagonal_apply, Matrix.of_apply, Matrix.transpose_apply]
  by_cases h : i ∈ Set.range p
  · obtain ⟨l, rfl⟩ := h
    simp only [hp.eq_iff, ite_mul, one_mul, zero_mul, mul_ite, mul_one, mul_zero]
    by_cases hij : p l = j
    · subst hij
      rw [if_pos rfl, Finset.sum_eq_single l]
      · simp
      · intro b _ hb
        rw [if_neg]; exact fun h => hb (hp h).symm
      · simp
    · rw [if_neg hij]
      symm
      apply Finset.sum_eq_zero
      intro b _
      by_cases hb : j = p b
      · rw [if_pos hb]
        rw [Finset.sum_eq_zero]
        intro c _
        by_cases h1 : l = c
        · subst h1
          rw [if_pos rfl, if_neg]
          rintro rfl; exact hij hb.symm
        · rw [if_neg h1]; simp
      · rw [if_neg hb]
  · have h0 := hd i h
    have hne : ∀ l, i ≠ p l := fun l hl => h ⟨l, hl.symm⟩
    simp [hne, h0]

variable {f0 f1 : n → K} {G0 X : Matrix n n K} {p : m → n}

/-- X A(f1) = 1 + (1 - X G0) γ. -/
theorem mul_AM (hX : X * AM f0 G0 = 1) (h0 : ∀ i, f0 i ≠ f1 i → f0 i ≠ 0) :
    X * AM f1 G0 = 1 + (1 - X * G0) * diagonal fun i => (f1 i - f0 i) / f0 i := by
  have e1 : AM f1 G0 = AM f0 G0 + (1 - G0) * diagonal fun i => f1 i - f0 i := by
    unfold AM
    have : (diagonal fun i => f1 i - 1) = (diagonal fun i => f0 i - 1) + diagonal fun i => f1 i - f0 i := by
      rw [Matrix.diagonal_add]; congr 1; funext i; ring
    rw [this]
    have : diagonal f1 = diagonal f0 + diagonal fun i => f1 i - f0 i := by
      rw [Matrix.diagonal_add]; congr 1; funext i; ring
    rw [this]
    noncomm_ring
  have e2 : X * (1 - G0) * diagonal f0 = 1 - X * G0 := by
    have h1 : AM f0 G0 = (1 - G0) * diagonal f0 + G0 := by
      unfold AM
      have : (diagonal fun i => f0 i - 1) = diagonal f0 - 1 := by
        rw [← Matrix.diagonal_one, Matrix.diagonal_sub]
      rw [this]; noncomm_ring
    rw [h1] at hX
    rw [eq_sub_iff_add_eq]
    rw [Matrix.mul_add, ← Matrix.mul_assoc] at hX
    exact hX
  have e3 : (diagonal fun i => f1 i - f0 i) = diagonal f0 * diagonal fun i => (f1 i - f0 i) / f0 i := by
    rw [Matrix.diagonal_mul_diagonal]; congr 1; funext i
    by_cases h : f0 i = f1 i
    · simp [h]
    · rw [mul_div_cancel₀ _ (h0 i h)]
  rw [e1, Matrix.mul_add, hX, e3, ← Matrix.mul_assoc, ← Matrix.mul_assoc, e2]

/-- Determinant of A after changing the fields at the positions `p`. -/
theorem det_AM (hX : X * AM f0 G0 = 1) (hp : Function.Injective p)
    (hoff : ∀ i, i ∉ Set.range p → f1 i = f0 i) (h0 : ∀ l, f0 (p l) ≠ 0) (hne : ∀ l, f1 (p l) ≠ f0 (p l)) :
    (AM f1 G0).det = (AM f0 G0).det * ((∏ l, - ((f1 (p l) - f0 (p l)) / f0 (p l))) *
      ((X * G0).submatrix p p - diagonal fun l => f1 (p l) / (f1 (p l) - f0 (p l))).det) := by
  have hA := mul_comm_one hX
  have hne0 := det_ne_zero_of_mul_eq_one hX
  have h1 := mul_AM (f1 := f1) hX (fun i hi => by
    intro h
    refine hi (hoff i fun ⟨l, hl⟩ => h0 l (by rw [hl]; exact h)).symm)
  have e : AM f1 G0 = AM f0 G0 * (X * AM f1 G0) := by rw [← Matrix.mul_assoc, hA, Matrix.one_mul]
  rw [e, Matrix.det_mul, h1]
  congr 1
  rw [selM_diag (m := m) (p := p) hp (d := fun i => (f1 i - f0 i) / f0 i)
    (fun i hi => by simp [hoff i hi])]
  rw [← Matrix.mul_assoc, Matrix.det_one_add_mul_comm]
  have e2 : (1 : Matrix m m K) + (selM p : Matrix n m K)ᵀ * (((1 : Matrix n n K) - X * G0) *
      ((selM p : Matrix n m K) * diagonal fun l => (f1 (p l) - f0 (p l)) / f0 (p l))) =
      ((X * G0).submatrix p p - diagonal fun l => f1 (p l) / (f1 (p l) - f0 (p l))) *
        diagonal fun l => - ((f1 (p l) - f0 (p l)) / f0 (p l)) := by
    rw [← Matrix.mul_assoc, ← Matrix.mul_assoc, Matrix.mul_assoc _ _ (selM p), mul_selM, selMT_mul']
    ext l l'
    simp only [Matrix.add_apply, Matrix.mul_diagonal, Matrix.submatrix_apply, Matrix.sub_apply,
      Matrix.one_apply, Matrix.diagonal_apply, id_eq, hp.eq_iff]
    by_cases h : l = l'
    · subst h
      simp only [if_true]
      have := h0 l
      have := sub_ne_zero.mpr (hne l)
      field_simp
      ring
    · simp only [if_neg h]; ring
  rw [e2, Matrix.det_mul, Matrix.det_diagonal, mul_comm]

/-- The inverse of A after changing the fields at the positions `p`. -/
theorem inv_AM (hX : X * AM f0 G0 = 1) (hp : Function.Injective p)
    (hoff : ∀ i, i ∉ Set.range p → f1 i = f0 i) (h0 : ∀ l, f0 (p l) ≠ 0) (hne : ∀ l, f1 (p l) ≠ f0 (p l))
    (h1 : ∀ l, f1 (p l) ≠ 0) {Y : Matrix m m K}
    (hY : Y * ((X * G0).submatrix p p - diagonal fun l => f1 (p l) / (f1 (p l) - f0 (p l))) = 1) :
    (diagonal (fun i => 1 / (1 + (f1 i - f0 i) / f0 i)) *
      (X - (X * G0).submatrix id p * Y * X.submatrix p id)) * AM f1 G0 = 1 := by
  have hA1 := mul_AM (f1 := f1) hX (fun i hi => by
    intro h
    refine hi (hoff i fun ⟨l, hl⟩ => h0 l (by rw [hl]; exact h)).symm)
  set d := fun l => (f1 (p l) - f0 (p l)) / f0 (p l) with hd
  have hsd := selM_diag (m := m) (p := p) hp (d := fun i => (f1 i - f0 i) / f0 i)
    (fun i hi => by simp [hoff i hi])
  have e0 : X - (X * G0).submatrix id p * Y * X.submatrix p id =
      ((1 : Matrix n n K) - (X * G0) * (selM p : Matrix n m K) * Y * (selM p : Matrix n m K)ᵀ) * X := by
    rw [Matrix.sub_mul, Matrix.one_mul, mul_selM, Matrix.mul_assoc _ _ X, selMT_mul]
  have e2 : diagonal d + Y + Y * ((selM p : Matrix n m K)ᵀ * ((1 : Matrix n n K) - X * G0) * (selM p : Matrix n m K)) * diagonal d = 0 := by
    have e3 : (selM p : Matrix n m K)ᵀ * ((1 : Matrix n n K) - X * G0) * (selM p : Matrix n m K) * diagonal d =
        - ((X * G0).submatrix p p - diagonal fun l => f1 (p l) / (f1 (p l) - f0 (p l))) * diagonal d - (1 : Matrix m m K) := by
      rw [Matrix.mul_assoc _ _ (selM p), mul_selM, selMT_mul']
      ext l l'
      simp only [Matrix.add_apply, Matrix.mul_diagonal, Matrix.submatrix_apply, Matrix.sub_apply,
        Matrix.one_apply, Matrix.diagonal_apply, id_eq, hp.eq_iff, Matrix.neg_apply, hd]
      by_cases h : l = l'
      · subst h
        simp only [if_true]
        have := h0 l
        have := sub_ne_zero.mpr (hne l)
        field_simp
        ring
      · simp only [if_neg h]; ring
    rw [Matrix.mul_assoc, e3, Matrix.mul_sub, ← Matrix.mul_assoc, Matrix.mul_neg, hY]
    simp
  have e4 : (X - (X * G0).submatrix id p * Y * X.submatrix p id) * AM f1 G0 =
      1 + diagonal fun i => (f1 i - f0 i) / f0 i := by
    rw [e0, Matrix.mul_assoc, hA1, hsd]
    have : ((1 : Matrix n n K) - X * G0 * (selM p : Matrix n m K) * Y * (selM p : Matrix n m K)ᵀ) *
        ((1 : Matrix n n K) + ((1 : Matrix n n K) - X * G0) * ((selM p : Matrix n m K) * diagonal d * (selM p : Matrix n m K)ᵀ)) =
        (1 : Matrix n n K) + (selM p : Matrix n m K) * diagonal d * (selM p : Matrix n m K)ᵀ -
          X * G0 * (selM p : Matrix n m K) * (diagonal d + Y + Y * ((selM p : Matrix n m K)ᵀ * ((1 : Matrix n n K) - X * G0) * (selM p : Matrix n m K)) *
            diagonal d) * (selM p : Matrix n m K)ᵀ := by
      simp only [Matrix.mul_add, Matrix.add_mul, Matrix.mul_sub, Matrix.sub_mul, Matrix.mul_one,
        Matrix.one_mul, Matrix.mul_assoc]
      abel
    rw [this, e2]; simp [hd]
  rw [Matrix.mul_assoc, e4, ← Matrix.diagonal_one, Matrix.diagonal_add, Matrix.diagonal_mul_diagonal]
  congr 1
  funext i
  have : 1 + (f1 i - f0 i) / f0 i ≠ 0 := by
    by_cases hi : i ∈ Set.range p
    · obtain ⟨l, rfl⟩ := hi
      have := h0 l
      have h2 := h1 l
      rw [ne_eq, one_add_div this, div_eq_zero_iff]
      rintro (h | h)
      · apply h2; linear_combination h
      · exact this h
    · simp [hoff i hi]
  field_simp

end matrices

section functions
variable {K : Type} [Field K] {n : ℕ} {X Y : DMat K} {f0 f1 : ℕ → K} {g0 tG : ℕ → ℕ → K} {ps : List ℕ}

theorem toM_specA (f : ℕ → K) (g0 : ℕ → ℕ → K) :
    toM n n (specA f g0) = AM (fun i : Fin n => f i) (toM n n g0) := by
  ext i j
  simp [specA, AM, Matrix.mul_diagonal, Matrix.diagonal_apply, Fin.ext_iff]
  split_ifs with h
  · rw [h]
  · rfl

/-- Gamma from the fields `f0` (start) and `f1` (current) at the positions `ps`. -/
def gamF (tG : ℕ → ℕ → K) (f0 f1 : ℕ → K) (ps : List ℕ) : ℕ → ℕ → K := fun i j =>
  tG (ps.getD i 0) (ps.getD j 0) -
    if i = j then f1 (ps.getD i 0) / (f1 (ps.getD i 0) - f0 (ps.getD i 0)) else 0

/-- `tG` holds X G0. -/
def IsTG (tG : ℕ → ℕ → K) (X : DMat K) (n : ℕ) (g0 : ℕ → ℕ → K) : Prop :=
  ∀ i < n, ∀ j < n, tG i j = ∑ k ∈ Finset.range n, X.val i k * g0 k j

theorem IsTG.mat (h : IsTG tG X n g0) : toM n n X.val * toM n n g0 = toM n n tG := by
  ext i j
  rw [Matrix.mul_apply, toM_apply, h i i.2 j j.2]
  exact Fin.sum_univ_eq_sum_range (fun k => X.val i k * g0 k j) n

/-- positions as a function into `Fin n` -/
def posF (hb : ∀ p ∈ ps, p < n) : Fin ps.length → Fin n := fun l => ⟨ps[l], hb _ (List.getElem_mem _)⟩

theorem posF_inj (nd : ps.Nodup) (hb : ∀ p ∈ ps, p < n) : Function.Injective (posF hb) := by
  intro a b h
  simp only [posF, Fin.ext_iff] at h
  exact Fin.ext ((nd.getElem_inj_iff).mp h)

theorem not_mem_posF (hb : ∀ p ∈ ps, p < n) {i : Fin n} (hi : i ∉ Set.range (posF hb)) : (i : ℕ) ∉ ps := by
  intro h
  obtain ⟨l, hl, e⟩ := List.getElem_of_mem h
  exact hi ⟨⟨l, hl⟩, Fin.ext e⟩

theorem toM_gamF (hX : IsTG tG X n g0) (hb : ∀ p ∈ ps, p < n) :
    toM ps.length ps.length (gamF tG f0 f1 ps) =
      (toM n n X.val * toM n n g0).submatrix (posF hb) (posF hb) -
        diagonal fun l => f1 (posF hb l) / (f1 (posF hb l) - f0 (posF hb l)) := by
  rw [hX.mat]
  ext l l'
  simp only [toM_apply, gamF, Matrix.sub_apply, Matrix.submatrix_apply, posF, Matrix.diagonal_apply, Fin.ext_iff,
    List.getD_eq_getElem _ _ l.2, List.getD_eq_getElem _ _ l'.2, Fin.getElem_fin]

/-- det A after changing the fields at the positions `ps`. -/
theorem detA_change (hX : IsInvOf X n (specA f0 g0)) (htG : IsTG tG X n g0) (nd : ps.Nodup)
    (hb : ∀ p ∈ ps, p < n) (hoff : ∀ i < n, i ∉ ps → f1 i = f0 i) (h0 : ∀ p ∈ ps, f0 p ≠ 0)
    (hne : ∀ p ∈ ps, f1 p ≠ f0 p) :
    detN n (specA f1 g0) = detN n (specA f0 g0) *
      ((ps.map fun p => - ((f1 p - f0 p) / f0 p)).prod * detN ps.length (gamF tG f0 f1 ps)) := by
  have hX' := hX.2.2
  rw [toM_specA] at hX'
  have := det_AM (f1 := fun i : Fin n => f1 i) hX' (posF_inj nd hb)
    (fun i hi => hoff i i.2 (not_mem_posF hb hi)) (fun l => h0 _ (List.getElem_mem _))
    (fun l => hne _ (List.getElem_mem _))
  unfold detN
  rw [toM_specA, toM_specA, this, toM_gamF htG hb]
  congr 2
  rw [← List.prod_ofFn]
  congr 1
  apply List.ext_getElem <;> simp [posF]

/-- A⁻¹ after changing the fields at the positions `ps`. -/
theorem invA_change (hX : IsInvOf X n (specA f0 g0)) (htG : IsTG tG X n g0) (nd : ps.Nodup)
    (hb : ∀ p ∈ ps, p < n) (hoff : ∀ i < n, i ∉ ps → f1 i = f0 i) (h0 : ∀ p ∈ ps, f0 p ≠ 0)
    (hne : ∀ p ∈ ps, f1 p ≠ f0 p) (h1 : ∀ p ∈ ps, f1 p ≠ 0)
    (hY : IsInvOf Y ps.length (gamF tG f0 f1 ps)) {Z : DMat K} (hr : Z.rows = n) (hc : Z.cols = n)
    (hZ : ∀ i < n, ∀ j < n, Z.val i j = 1 / (1 + (f1 i - f0 i) / f0 i) * (X.val i j -
      ∑ l ∈ Finset.range ps.length, (∑ l' ∈ Finset.range ps.length, tG i (ps.getD l' 0) * Y.val l' l) *
        X.val (ps.getD l 0) j)) :
    IsInvOf Z n (specA f1 g0) := by
  have hX' := hX.2.2
  rw [toM_specA] at hX'
  have hY' := hY.2.2
  rw [toM_gamF htG hb] at hY'
  have := inv_AM (f1 := fun i : Fin n => f1 i) hX' (posF_inj nd hb)
    (fun i hi => hoff i i.2 (not_mem_posF hb hi)) (fun l => h0 _ (List.getElem_mem _))
    (fun l => hne _ (List.getElem_mem _)) (fun l => h1 _ (List.getElem_mem _)) hY'
  refine ⟨hr, hc, ?_⟩
  rw [toM_specA, ← this]
  congr 1
  rw [htG.mat]
  ext i j
  rw [toM_apply, hZ i i.2 j j.2, Matrix.diagonal_mul, Matrix.sub_apply]
  congr 2
  rw [Matrix.mul_apply, ← Fin.sum_univ_eq_sum_range (fun l => (∑ l' ∈ Finset.range ps.length,
    tG i (ps.getD l' 0) * Y.val l' l) * X.val (ps.getD l 0) j)]
  refine Finset.sum_congr rfl fun l _ => ?_
  rw [Matrix.mul_apply, ← Fin.sum_univ_eq_sum_range (fun l' => tG i (ps.getD l' 0) * Y.val l' l)]
  simp [posF]

end functions
end CTInt
