import Mathlib.Logic.Equiv.Basic
import Mathlib.Data.List.Sort
import Mathlib.Data.List.GetD
import Verif.Proofs.FastUpdate

/-!
# Row and column exchanges (helper lemmas for C12, C13, C14)
-/

set_option linter.all false

open Matrix

namespace CTInt

variable {K : Type} [Field K]

theorem swap_lt {n a b i : ℕ} (ha : a < n) (hb : b < n) (hi : i < n) : Equiv.swap a b i < n := by
  rw [Equiv.swap_apply_def]; split_ifs <;> omega

theorem fin_swap_val {n a b : ℕ} (ha : a < n) (hb : b < n) (i : Fin n) :
    ((Equiv.swap (⟨a, ha⟩ : Fin n) ⟨b, hb⟩ i : Fin n) : ℕ) = Equiv.swap a b (i : ℕ) := by
  simp only [Equiv.swap_apply_def, Fin.ext_iff]
  split_ifs <;> rfl

theorem toM_swap_rows {n a b : ℕ} (ha : a < n) (hb : b < n) (m : ℕ) (g : ℕ → ℕ → K) :
    toM n m (fun i j => g (Equiv.swap a b i) j) =
      (toM n m g).submatrix (Equiv.swap (⟨a, ha⟩ : Fin n) ⟨b, hb⟩) id := by
  ext i j; simp [fin_swap_val]

theorem toM_swap_cols {n a b : ℕ} (ha : a < n) (hb : b < n) (m : ℕ) (g : ℕ → ℕ → K) :
    toM m n (fun i j => g i (Equiv.swap a b j)) =
      (toM m n g).submatrix id (Equiv.swap (⟨a, ha⟩ : Fin n) ⟨b, hb⟩) := by
  ext i j; simp [fin_swap_val]

/-- Exchanging two different rows flips the determinant. -/
theorem detN_swap_rows {n a b : ℕ} (ha : a < n) (hb : b < n) (hab : a ≠ b) (g : ℕ → ℕ → K) :
    detN n (fun i j => g (Equiv.swap a b i) j) = - detN n g := by
  unfold detN
  rw [toM_swap_rows ha hb, Matrix.det_permute, Equiv.Perm.sign_swap (by simpa [Fin.ext_iff] using hab)]
  simp

/-- Exchanging two different columns flips the determinant. -/
theorem detN_swap_cols {n a b : ℕ} (ha : a < n) (hb : b < n) (hab : a ≠ b) (g : ℕ → ℕ → K) :
    detN n (fun i j => g i (Equiv.swap a b j)) = - detN n g := by
  unfold detN
  rw [toM_swap_cols ha hb, Matrix.det_permute', Equiv.Perm.sign_swap (by simpa [Fin.ext_iff] using hab)]
  simp

/-- Exchanging rows of the matrix is exchanging columns of the inverse. -/
theorem IsInvOf.swapCol {n a b : ℕ} (ha : a < n) (hb : b < n) {X : DMat K} {g : ℕ → ℕ → K}
    (h : IsInvOf X n g) : IsInvOf (X.swapCol a b) n (fun i j => g (Equiv.swap a b i) j) := by
  refine ⟨h.1, h.2.1, ?_⟩
  rw [toM_swap_rows ha hb, show (X.swapCol a b).val = fun i j => X.val i (Equiv.swap a b j) from rfl,
    toM_swap_cols ha hb, Matrix.submatrix_mul_equiv, h.2.2]
  simp

/-- Exchanging columns of the matrix is exchanging rows of the inverse. -/
theorem IsInvOf.swapRow {n a b : ℕ} (ha : a < n) (hb : b < n) {X : DMat K} {g : ℕ → ℕ → K}
    (h : IsInvOf X n g) : IsInvOf (X.swapRow a b) n (fun i j => g i (Equiv.swap a b j)) := by
  refine ⟨h.1, h.2.1, ?_⟩
  rw [toM_swap_cols ha hb, show (X.swapRow a b).val = fun i j => X.val (Equiv.swap a b i) j from rfl,
    toM_swap_rows ha hb]
  have : ((toM n n X.val).submatrix (Equiv.swap (⟨a, ha⟩ : Fin n) ⟨b, hb⟩) id) *
      ((toM n n g).submatrix id (Equiv.swap (⟨a, ha⟩ : Fin n) ⟨b, hb⟩)) =
      (toM n n X.val * toM n n g).submatrix (Equiv.swap (⟨a, ha⟩ : Fin n) ⟨b, hb⟩)
        (Equiv.swap (⟨a, ha⟩ : Fin n) ⟨b, hb⟩) := by
    rw [← Matrix.submatrix_mul _ _ _ id _ Function.bijective_id]
  rw [this, h.2.2, Matrix.submatrix_one_equiv]

/-- The index map produced by a list of exchanges performed one after the other. -/
def permOf (l : List (ℕ × ℕ)) : Equiv.Perm ℕ := (l.map fun p => Equiv.swap p.1 p.2).prod

@[simp] theorem permOf_nil : permOf [] = 1 := rfl
theorem permOf_cons (p : ℕ × ℕ) (l : List (ℕ × ℕ)) :
    permOf (p :: l) = Equiv.swap p.1 p.2 * permOf l := by simp [permOf]
theorem permOf_cons_apply (p : ℕ × ℕ) (l : List (ℕ × ℕ)) (i : ℕ) :
    permOf (p :: l) i = Equiv.swap p.1 p.2 (permOf l i) := by rw [permOf_cons]; rfl
theorem permOf_append (l l' : List (ℕ × ℕ)) : permOf (l ++ l') = permOf l * permOf l' := by
  simp [permOf]

theorem applySwaps_rows (l : List (ℕ × ℕ)) (A : DMat K) : (Src.applySwaps l A).rows = A.rows := by
  induction l generalizing A with
  | nil => rfl
  | cons p l ih => simp only [Src.applySwaps, List.foldl_cons] at ih ⊢; rw [ih]; rfl

theorem applySwaps_cols (l : List (ℕ × ℕ)) (A : DMat K) : (Src.applySwaps l A).cols = A.cols := by
  induction l generalizing A with
  | nil => rfl
  | cons p l ih => simp only [Src.applySwaps, List.foldl_cons] at ih ⊢; rw [ih]; rfl

/-- Entries after a list of simultaneous row and column exchanges. -/
theorem applySwaps_val (l : List (ℕ × ℕ)) (A : DMat K) (i j : ℕ) :
    (Src.applySwaps l A).val i j = A.val (permOf l i) (permOf l j) := by
  induction l generalizing A i j with
  | nil => rfl
  | cons p l ih =>
    have := ih ((A.swapCol p.1 p.2).swapRow p.1 p.2) i j
    simp only [Src.applySwaps, List.foldl_cons] at this ⊢
    rw [this, permOf_cons_apply, permOf_cons_apply]
    rfl

theorem permOf_lt {n : ℕ} {l : List (ℕ × ℕ)} (hl : ∀ p ∈ l, p.1 < n ∧ p.2 < n) {i : ℕ} (hi : i < n) :
    permOf l i < n := by
  induction l with
  | nil => simpa
  | cons p l ih =>
    rw [permOf_cons_apply]
    have hp := hl p (by simp)
    exact swap_lt hp.1 hp.2 (ih fun q hq => hl q (by simp [hq]))

theorem permOf_ge {n : ℕ} {l : List (ℕ × ℕ)} (hl : ∀ p ∈ l, p.1 < n ∧ p.2 < n) {i : ℕ} (hi : n ≤ i) :
    permOf l i = i := by
  induction l with
  | nil => rfl
  | cons p l ih =>
    have hp := hl p (by simp)
    rw [permOf_cons_apply, ih fun q hq => hl q (by simp [hq])]
    exact Equiv.swap_apply_of_ne_of_ne (by omega) (by omega)

/-- Simultaneous exchanges keep the inverse relation. -/
theorem IsInvOf.applySwaps {n : ℕ} {X : DMat K} {g : ℕ → ℕ → K} {l : List (ℕ × ℕ)}
    (hl : ∀ p ∈ l, p.1 < n ∧ p.2 < n) (h : IsInvOf X n g) :
    IsInvOf (Src.applySwaps l X) n (fun i j => g (permOf l i) (permOf l j)) := by
  induction l generalizing X g with
  | nil => exact h
  | cons p l ih =>
    have hp := hl p (by simp)
    have h1 := ((h.swapCol hp.1 hp.2).swapRow hp.1 hp.2)
    have := ih (fun q hq => hl q (by simp [hq])) h1
    simp only [Src.applySwaps, List.foldl_cons] at this ⊢
    refine this.congr fun i hi j hj => ?_
    rw [permOf_cons_apply, permOf_cons_apply]

/-- Simultaneous exchanges keep the determinant. -/
theorem detN_permOf {n : ℕ} {g : ℕ → ℕ → K} {l : List (ℕ × ℕ)}
    (hl : ∀ p ∈ l, p.1 < n ∧ p.2 < n) :
    detN n (fun i j => g (permOf l i) (permOf l j)) = detN n g := by
  induction l generalizing g with
  | nil => rfl
  | cons p l ih =>
    have hp := hl p (by simp)
    have h1 := ih (g := fun i j => g (Equiv.swap p.1 p.2 i) (Equiv.swap p.1 p.2 j))
      (fun q hq => hl q (by simp [hq]))
    have e : (fun i j => g (permOf (p :: l) i) (permOf (p :: l) j)) = fun i j =>
        (fun i j => g (Equiv.swap p.1 p.2 i) (Equiv.swap p.1 p.2 j)) (permOf l i) (permOf l j) := by
      funext i j; rw [permOf_cons_apply, permOf_cons_apply]
    rw [e, h1]
    by_cases hab : p.1 = p.2
    · rw [hab, Equiv.swap_self]; rfl
    · rw [detN_swap_rows hp.1 hp.2 hab (fun i j => g i (Equiv.swap p.1 p.2 j)),
        detN_swap_cols hp.1 hp.2 hab, neg_neg]

/-! ## The swap-to-the-end loop -/

/-- Exchanges for a *descending* list of positions, highest position first, with targets
    `n-1, n-2, ...`. -/
def swapsDesc : List ℕ → ℕ → List (ℕ × ℕ)
  | [], _ => []
  | p :: ps, n => (p, n - 1) :: swapsDesc ps (n - 1)

theorem swapsDesc_length (ps : List ℕ) (n : ℕ) : (swapsDesc ps n).length = ps.length := by
  induction ps generalizing n with
  | nil => rfl
  | cons p ps ih => simp [swapsDesc, ih]

theorem swapsDesc_getElem (ps : List ℕ) (n i : ℕ) (h : i < ps.length)
    (h' : i < (swapsDesc ps n).length := by rw [swapsDesc_length]; exact h) :
    (swapsDesc ps n)[i] = (ps[i], n - 1 - i) := by
  induction ps generalizing n i with
  | nil => simp at h
  | cons p ps ih =>
    cases i with
    | zero => simp [swapsDesc]
    | succ i =>
      simp only [swapsDesc, List.getElem_cons_succ]
      rw [ih (n - 1) i (by simpa using h)]
      congr 1; omega

/-- The swap list of the code is the descending construction on the reversed position list. -/
theorem swapList_eq (ps : List ℕ) (n : ℕ) :
    Src.swapList ps.length n ps = swapsDesc ps.reverse n := by
  apply List.ext_getElem
  · simp [Src.swapList, swapsDesc_length]
  · intro i h1 h2
    have hi : i < ps.length := by simpa [Src.swapList] using h1
    rw [swapsDesc_getElem _ _ _ (by simpa using hi) h2]
    simp only [Src.swapList, List.getElem_map, List.getElem_range, List.getElem_reverse]
    rw [List.getD_eq_getElem _ _ (by omega)]

theorem swapsDesc_bound {ps : List ℕ} {n : ℕ} (hb : ∀ p ∈ ps, p < n) (hl : ps.length ≤ n) :
    ∀ q ∈ swapsDesc ps n, q.1 < n ∧ q.2 < n := by
  induction ps generalizing n with
  | nil => simp [swapsDesc]
  | cons p ps ih =>
    intro q hq
    have hn : 0 < n := by simp at hl; omega
    simp only [swapsDesc, List.mem_cons] at hq
    rcases hq with rfl | hq
    · exact ⟨hb p (by simp), by simp; omega⟩
    · -- the remaining positions need not be below n-1 here; use the elements directly
      have : ∀ (ps : List ℕ) (m : ℕ), ∀ q ∈ swapsDesc ps m, q.1 ∈ ps ∧ (q.2 ≤ m - 1) := by
        intro ps
        induction ps with
        | nil => simp [swapsDesc]
        | cons p ps ih2 =>
          intro m q hq
          simp only [swapsDesc, List.mem_cons] at hq
          rcases hq with rfl | hq
          · simp
          · have := ih2 _ q hq
            exact ⟨by simp [this.1], by omega⟩
      have h2 := this ps (n - 1) q hq
      exact ⟨hb _ (by simp [h2.1]), by omega⟩

/-- Main lemma: for a strictly descending list of positions below `N + length`, the slots
    `N, N+1, ...` receive the positions in ascending order, the others stay in front. -/
theorem permOf_swapsDesc {ps : List ℕ} {N : ℕ} (hs : ps.Pairwise (· > ·))
    (hb : ∀ p ∈ ps, p < N + ps.length) :
    (∀ j (hj : j < ps.length), permOf (swapsDesc ps (N + ps.length)) (N + ps.length - 1 - j) = ps[j]) ∧
    (∀ i < N, permOf (swapsDesc ps (N + ps.length)) i < N + ps.length ∧
      permOf (swapsDesc ps (N + ps.length)) i ∉ ps) := by
  induction ps with
  | nil => simp [swapsDesc]
  | cons p ps ih =>
    rw [List.pairwise_cons] at hs
    have hp : p < N + ps.length + 1 := by have := hb p (by simp); simp at this; omega
    have hb' : ∀ q ∈ ps, q < N + ps.length := by
      intro q hq
      have h1 := hs.1 q hq
      omega
    obtain ⟨ih1, ih2⟩ := ih hs.2 hb'
    have e : N + (p :: ps).length = N + ps.length + 1 := by simp; omega
    have e' : N + ps.length + 1 - 1 = N + ps.length := by omega
    have hbd := swapsDesc_bound (n := N + ps.length) hb' (by omega)
    constructor
    · intro j hj
      rw [e]
      simp only [swapsDesc, permOf_cons_apply, e']
      cases j with
      | zero =>
        rw [Nat.sub_zero, permOf_ge hbd (le_refl _), Equiv.swap_apply_right]
        rfl
      | succ j =>
        have hj' : j < ps.length := by simpa using hj
        have hq := hs.1 ps[j] (List.getElem_mem _)
        rw [show N + ps.length - (j + 1) = N + ps.length - 1 - j by omega, ih1 j hj',
          Equiv.swap_apply_of_ne_of_ne (by omega) (by omega)]
        rfl
    · intro i hi
      rw [e]
      simp only [swapsDesc, permOf_cons_apply, e']
      obtain ⟨h1, h2⟩ := ih2 i hi
      refine ⟨swap_lt hp (by omega) (by omega), ?_⟩
      rw [Equiv.swap_apply_def]
      split_ifs with h3 h4
      · intro hm
        rw [List.mem_cons] at hm
        rcases hm with hm | hm
        · omega
        · have := hs.1 _ hm; omega
      · omega
      · intro hm
        rw [List.mem_cons] at hm
        rcases hm with hm | hm
        · exact h3 hm
        · exact h2 hm

end CTInt
