import Verif.Proofs.InvA
import Mathlib.Data.List.Sort

/-!
# Removing rows and columns of `InvAMatrix`
-/

set_option linter.all false

open Matrix

namespace CTInt

open InvA

section lists
variable {α : Type}

theorem swapAt_length (l : List α) (i j : ℕ) : (swapAt l i j).length = l.length := by
  unfold swapAt; split <;> simp

theorem swapAt_getElem? {l : List α} {i j : ℕ} (hi : i < l.length) (hj : j < l.length) (k : ℕ) :
    (swapAt l i j)[k]? = l[Equiv.swap i j k]? := by
  unfold swapAt
  simp only [List.getElem?_eq_getElem hi, List.getElem?_eq_getElem hj]
  rw [Equiv.swap_apply_def]
  by_cases h1 : k = j
  · subst h1
    by_cases h2 : k = i
    · subst h2; simp [hi]
    · simp [h2, hi, hj]
  · by_cases h2 : k = i
    · subst h2
      rw [List.getElem?_set_ne (by omega)]
      simp [hi, hj]
    · rw [List.getElem?_set_ne (by omega), List.getElem?_set_ne (by omega), if_neg h2, if_neg h1]

/-- All exchanges of a list, first pair first. -/
def swapAll (sl : List (ℕ × ℕ)) (v : List α) : List α := sl.foldl (fun v p => swapAt v p.1 p.2) v

theorem swapAll_length (sl : List (ℕ × ℕ)) (v : List α) : (swapAll sl v).length = v.length := by
  induction sl generalizing v with
  | nil => rfl
  | cons p sl ih => rw [swapAll, List.foldl_cons]; exact (ih _).trans (swapAt_length _ _ _)

theorem swapAll_getElem? {sl : List (ℕ × ℕ)} {v : List α} (hb : ∀ p ∈ sl, p.1 < v.length ∧ p.2 < v.length)
    (k : ℕ) : (swapAll sl v)[k]? = v[permOf sl k]? := by
  induction sl generalizing v with
  | nil => rfl
  | cons p sl ih =>
    rw [swapAll, List.foldl_cons]
    have h := ih (v := swapAt v p.1 p.2) (fun q hq => by rw [swapAt_length]; exact hb q (by simp [hq]))
    rw [swapAll] at h
    rw [h, swapAt_getElem? (hb p (by simp)).1 (hb p (by simp)).2, permOf_cons_apply]

theorem swapAll_getD {sl : List (ℕ × ℕ)} {v : List α} (hb : ∀ p ∈ sl, p.1 < v.length ∧ p.2 < v.length)
    (k : ℕ) (d : α) : (swapAll sl v).getD k d = v.getD (permOf sl k) d := by
  simp only [List.getD_eq_getElem?_getD, swapAll_getElem? hb]

theorem take_getD {l : List α} {n k : ℕ} (h : k < n) (d : α) : (l.take n).getD k d = l.getD k d := by
  simp only [List.getD_eq_getElem?_getD, List.getElem?_take, if_pos h]

end lists

variable {K : Type} [Field K] [DecidableEq K]

theorem swapFold_spec {A : InvA K} {n : ℕ} (hA : A.Aligned n) (hr : A.mat.rows = n) (hc : A.mat.cols = n)
    {ι : Type} (f : ι → ℕ × ℕ) (l : List ι) (hb : ∀ x ∈ l, (f x).1 < n ∧ (f x).2 < n) :
    Res.foldl (fun A x => InvA.swapRowsCols A (f x).1 (f x).2) A l = .ok
      { A with
        cr := swapAll (l.map f) A.cr
        an := swapAll (l.map f) A.an
        al := swapAll (l.map f) A.al
        vi := swapAll (l.map f) A.vi
        mat := Src.applySwaps (l.map f) A.mat } := by
  induction l generalizing A with
  | nil => rfl
  | cons x l ih =>
    have hx := hb x (by simp)
    rw [Res.foldl_cons]
    have e : InvA.swapRowsCols A (f x).1 (f x).2 = .ok { A with
        cr := swapAt A.cr (f x).1 (f x).2
        an := swapAt A.an (f x).1 (f x).2
        al := swapAt A.al (f x).1 (f x).2
        vi := swapAt A.vi (f x).1 (f x).2
        mat := (A.mat.swapCol (f x).1 (f x).2).swapRow (f x).1 (f x).2 } := by
      unfold InvA.swapRowsCols
      simp only [hA.cr, hA.an, hA.al, hA.vi, hr, hc, Res.assert_true hx.1, Res.assert_true hx.2,
        Res.assert_true (show True ∧ True ∧ True from ⟨trivial, trivial, trivial⟩),
        Res.assert_true (show (f x).1 < n ∧ (f x).2 < n ∧ (f x).1 < n ∧ (f x).2 < n from
          ⟨hx.1, hx.2, hx.1, hx.2⟩), Res.bind_ok, Res.pure_eq]
    rw [e, Res.bind_ok, ih]
    · rfl
    · exact ⟨by simp [swapAt_length, hA.cr], by simp [swapAt_length, hA.an], by simp [swapAt_length, hA.al],
        by simp [swapAt_length, hA.vi]⟩
    · exact hr
    · exact hc
    · exact fun y hy => hb y (by simp [hy])

/-- What the four vectors record at position `i`. -/
noncomputable def InvA.rowAt (A : InvA K) (i : ℕ) : OpRow K :=
  ⟨A.cr.getD i default, A.an.getD i default, A.al.getD i 0, A.vi.getD i default⟩

/-- Unit columns at the removed positions: the remaining block of the inverse is the inverse of the remaining
    block. -/
theorem unit_cols_down {N M : ℕ} {g : ℕ → ℕ → K} {X Y : DMat K} (hX : IsInvOf X (N + M) g)
    (hcol : ∀ i < N + M, ∀ j < M, g i (N + j) = if i = N + j then 1 else 0)
    (hr : Y.rows = N) (hc : Y.cols = N) (hY : ∀ i < N, ∀ j < N, Y.val i j = X.val i j) :
    IsInvOf Y N g ∧ detN N g = detN (N + M) g := by
  have e12 : (toM N M fun i j => g i (N + j)) = 0 := by
    ext i j
    have := hcol i (by omega) j j.2
    rw [toM_apply, this, if_neg (by omega)]; rfl
  have e22 : (toM M M fun i j => g (N + i) (N + j)) = 1 := by
    ext i j
    have := hcol (N + i) (by omega) j j.2
    rw [toM_apply, this, Matrix.one_apply]
    congr 1; simp [Fin.ext_iff]
  have h := (isInvOf_add.mp hX).2.2
  rw [e12, e22, Matrix.fromBlocks_multiply, ← Matrix.fromBlocks_one, Matrix.fromBlocks_inj] at h
  obtain ⟨h1, h2, h3, h4⟩ := h
  simp only [Matrix.mul_zero, Matrix.mul_one, zero_add] at h2
  rw [h2, Matrix.zero_mul, add_zero] at h1
  refine ⟨⟨hr, hc, by rw [toM_congr hY]; exact h1⟩, ?_⟩
  unfold detN
  rw [det_toM_add, e12, e22, Matrix.det_fromBlocks_zero₁₂, Matrix.det_one, mul_one]

theorem flavorA_reindex {NI : K} {G0 : Op → Op → K} {an cr an' cr' : List Op} {al al' : List K}
    {σ : Equiv.Perm ℕ} {n : ℕ}
    (h1 : ∀ i < n, an'.getD i default = an.getD (σ i) default)
    (h2 : ∀ i < n, cr'.getD i default = cr.getD (σ i) default)
    (h3 : ∀ i < n, al'.getD i 0 = al.getD (σ i) 0) {i j : ℕ} (hi : i < n) (hj : j < n) :
    flavorA NI G0 an' cr' al' i j = flavorA NI G0 an cr al (σ i) (σ j) := by
  unfold flavorA specA specG0
  simp only [h1 i hi, h2 j hj, h3 j hj, σ.injective.eq_iff]

theorem removeRowsCols_spec {NI : K} {G0 : Op → Op → K} {junk : ℕ → ℕ → K} {A : InvA K} {N M : ℕ}
    {ps : List ℕ} (hA : A.Aligned (N + M))
    (hX : IsInvOf A.mat (N + M) (flavorA NI G0 A.an A.cr A.al)) (hl : ps.length = M)
    (hp : Ascending (N + M) ps) (hNI : ∀ p ∈ ps, A.al.getD p 0 = NI) :
    ∃ A' : InvA K, A.removeRowsCols junk ps = .ok A' ∧ A'.Aligned N ∧
      IsInvOf A'.mat N (flavorA NI G0 A'.an A'.cr A'.al) ∧
      detN N (flavorA NI G0 A'.an A'.cr A'.al) = detN (N + M) (flavorA NI G0 A.an A.cr A.al) ∧
      (∀ i < N, A'.rowAt i = A.rowAt (permOf (Src.swapList M (N + M) ps) i)) := by
  subst hl
  obtain ⟨h0, h1, h2⟩ := sw_ascending hp
  have hfold := swapFold_spec hA hX.1 hX.2.1 (fun i => (ps.getD (ps.length - 1 - i) 0, N + ps.length - 1 - i))
    (List.range ps.length) (fun x hx => by
      refine h0 _ ?_
      unfold Src.swapList
      exact List.mem_map_of_mem hx)
  have hsl : (List.range ps.length).map (fun i => (ps.getD (ps.length - 1 - i) 0, N + ps.length - 1 - i)) =
      Src.swapList ps.length (N + ps.length) ps := rfl
  rw [hsl] at hfold
  set sl := Src.swapList ps.length (N + ps.length) ps with hsldef
  unfold InvA.removeRowsCols
  simp only [hX.1, Res.assert_true (show ps.length ≤ N + ps.length by omega), Res.bind_ok]
  rw [hfold]
  simp only [Res.bind_ok, Res.pure_eq, show N + ps.length - ps.length = N by omega]
  have bcr : ∀ p ∈ sl, p.1 < A.cr.length ∧ p.2 < A.cr.length := by rw [hA.cr]; exact h0
  have ban : ∀ p ∈ sl, p.1 < A.an.length ∧ p.2 < A.an.length := by rw [hA.an]; exact h0
  have bal : ∀ p ∈ sl, p.1 < A.al.length ∧ p.2 < A.al.length := by rw [hA.al]; exact h0
  have bvi : ∀ p ∈ sl, p.1 < A.vi.length ∧ p.2 < A.vi.length := by rw [hA.vi]; exact h0
  refine ⟨_, rfl, ⟨by simp [swapAll_length, hA.cr], by simp [swapAll_length, hA.an],
    by simp [swapAll_length, hA.al], by simp [swapAll_length, hA.vi]⟩, ?_⟩
  have hX' := hX.applySwaps h0
  have hre : ∀ i < N, ∀ j < N, flavorA NI G0 ((swapAll sl A.an).take N) ((swapAll sl A.cr).take N)
      ((swapAll sl A.al).take N) i j = flavorA NI G0 A.an A.cr A.al (permOf sl i) (permOf sl j) := by
    intro i hi j hj
    refine flavorA_reindex (n := N) ?_ ?_ ?_ hi hj <;> intro k hk <;> rw [take_getD hk, swapAll_getD]
    · exact ban
    · exact bcr
    · exact bal
  have hd := unit_cols_down (Y := (Src.applySwaps sl A.mat).conservativeResize junk N N) hX' (by
    intro i hi j hj
    rw [h1 j hj, flavorA_col_NI (hNI _ (by
      rw [List.getD_eq_getElem _ _ hj]; exact List.getElem_mem _))]
    congr 1
    rw [← h1 j hj, eq_iff_iff]
    exact (permOf sl).injective.eq_iff) rfl rfl (fun i hi j hj =>
      DMat.conservativeResize_val (by
        rw [applySwaps_rows, applySwaps_cols, hX.1, hX.2.1]; omega))
  refine ⟨hd.1.congr fun i hi j hj => (hre i hi j hj).symm, ?_, ?_⟩
  · rw [← detN_permOf h0, ← hd.2]
    unfold detN
    congr 1
    exact toM_congr hre
  · intro i hi
    unfold InvA.rowAt
    simp only [take_getD hi, swapAll_getD bcr, swapAll_getD ban, swapAll_getD bal, swapAll_getD bvi]

end CTInt
