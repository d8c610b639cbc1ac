import Verif.Model.InvA
import Verif.Proofs.SubAlg
import Verif.Proofs.Removal

/-!
# Lemmas on `InvAMatrix`
-/

set_option linter.all false

open Matrix

namespace CTInt

variable {K : Type} [Field K] [DecidableEq K]

theorem evalF_eq (NI a : K) : evalF NI a = specF NI a := rfl

/-- A field value is the marker or an admissible value. -/
def OkAlpha (NI a : K) : Prop := a = NI ∨ GoodAlpha NI a

theorem GoodAlpha.specF {NI a : K} (h : GoodAlpha NI a) : specF NI a = a / (a - 1) := if_neg h.1

theorem specF_NI (NI : K) : specF NI NI = 1 := if_pos rfl

theorem GoodAlpha.specF_ne_one {NI a : K} (h : GoodAlpha NI a) : CTInt.specF NI a ≠ 1 := by
  rw [h.specF, ne_eq, div_eq_one_iff_eq (sub_ne_zero.mpr h.2.2)]
  intro h'
  have : (1 : K) = 0 := by linear_combination h'
  exact one_ne_zero this

theorem GoodAlpha.one_sub_specF {NI a : K} (h : GoodAlpha NI a) : 1 - CTInt.specF NI a = 1 / (1 - a) := by
  rw [h.specF]
  have h1 := sub_ne_zero.mpr h.2.2
  have h2 : 1 - a ≠ 0 := sub_ne_zero.mpr h.2.2.symm
  field_simp
  ring

theorem OkAlpha.specF_ne_zero {NI a : K} (h : OkAlpha NI a) : specF NI a ≠ 0 := by
  rcases h with rfl | h
  · rw [specF_NI]; exact one_ne_zero
  · rw [h.specF]
    exact div_ne_zero h.2.1 (sub_ne_zero.mpr h.2.2)

theorem OkAlpha.specF_inj {NI a b : K} (ha : OkAlpha NI a) (hb : OkAlpha NI b)
    (h : specF NI a = specF NI b) : a = b := by
  rcases ha with rfl | ha
  · rcases hb with rfl | hb
    · rfl
    · exact absurd (h ▸ specF_NI a) hb.specF_ne_one
  · rcases hb with rfl | hb
    · exact absurd (h.trans (specF_NI b)) ha.specF_ne_one
    · rw [ha.specF, hb.specF, div_eq_div_iff (sub_ne_zero.mpr ha.2.2) (sub_ne_zero.mpr hb.2.2)] at h
      linear_combination -h

/-- The four vectors have the same length. -/
structure InvA.Aligned (A : InvA K) (n : ℕ) : Prop where
  cr : A.cr.length = n
  an : A.an.length = n
  al : A.al.length = n
  vi : A.vi.length = n

/-! ### Block extension -/

theorem flavorA_col_NI {NI : K} {G0 : Op → Op → K} {an cr : List Op} {al : List K} {i j : ℕ}
    (h : al.getD j 0 = NI) : flavorA NI G0 an cr al i j = if i = j then 1 else 0 := by
  unfold flavorA specA
  simp only [h, specF_NI]; simp

theorem extend_blocks {n a : ℕ} {g : ℕ → ℕ → K} {X Y : DMat K} (hX : IsInvOf X n g)
    (hcol : ∀ i < n + a, ∀ j, n ≤ j → j < n + a → g i j = if i = j then 1 else 0)
    (hr : Y.rows = n + a) (hc : Y.cols = n + a)
    (h11 : ∀ i < n, ∀ j < n, Y.val i j = X.val i j)
    (h12 : ∀ i < n, ∀ j < a, Y.val i (n + j) = 0)
    (h22 : ∀ i < a, ∀ j < a, Y.val (n + i) (n + j) = if i = j then 1 else 0)
    (h21 : ∀ i < a, ∀ j < n, Y.val (n + i) j = - ∑ k ∈ Finset.range n, g (n + i) k * X.val k j) :
    IsInvOf Y (n + a) g ∧ detN (n + a) g = detN n g := by
  have e12 : (toM n a fun i j => g i (n + j)) = 0 := by
    ext i j
    have := hcol i (by omega) (n + j) (by omega) (by omega)
    rw [toM_apply, this, if_neg (by omega)]; rfl
  have e22 : (toM a a fun i j => g (n + i) (n + j)) = 1 := by
    ext i j
    have := hcol (n + i) (by omega) (n + j) (by omega) (by omega)
    rw [toM_apply, this, Matrix.one_apply]
    congr 1; simp [Fin.ext_iff]
  constructor
  · refine mul_blocks_eq_one hr hc (E := toM n n X.val) (F := 0)
      (G := - ((toM a n fun i j => g (n + i) j) * toM n n X.val)) (H := 1)
      (toM_congr h11) ?_ ?_ ?_ ?_
    · ext i j; exact h12 i i.2 j j.2
    · ext i j
      rw [toM_apply, h21 i i.2 j j.2, Matrix.neg_apply, Matrix.mul_apply]
      congr 1
      exact (Fin.sum_univ_eq_sum_range (fun k => g (n + i) k * X.val k j) n).symm
    · ext i j
      rw [toM_apply, h22 i i.2 j j.2, Matrix.one_apply]
      congr 1; simp [Fin.ext_iff]
    · rw [e12, e22, Matrix.fromBlocks_multiply]
      simp only [Matrix.mul_zero, Matrix.zero_mul, add_zero, Matrix.one_mul, hX.2.2, Matrix.neg_mul,
        Matrix.mul_assoc, Matrix.mul_one, zero_add, neg_add_cancel, neg_zero, Matrix.fromBlocks_one]
  · unfold detN
    rw [det_toM_add, e12, e22, Matrix.det_fromBlocks_zero₁₂, Matrix.det_one, mul_one]

/-! ### The cache of G0 columns -/

/-- Every cached column is the column of the current operators. -/
structure CacheOK (G0 : Op → Op → K) (A : InvA K) (n : ℕ) : Prop where
  len : A.idx.length = n
  rows : A.cache.rows = n
  col : ∀ c < n, 0 ≤ A.idx.getD c (-1) →
    (A.idx.getD c (-1)).toNat < A.num ∧ (A.idx.getD c (-1)).toNat < A.cache.cols ∧
    ∀ i < n, A.cache.val i (A.idx.getD c (-1)).toNat = G0 (A.an.getD i default) (A.cr.getD c default)

/-- Same object up to the cache. -/
structure SameButCache (A B : InvA K) : Prop where
  mat : B.mat = A.mat
  tG : B.tG = A.tG
  cr : B.cr = A.cr
  an : B.an = A.an
  al : B.al = A.al
  vi : B.vi = A.vi

theorem SameButCache.refl (A : InvA K) : SameButCache A A := ⟨rfl, rfl, rfl, rfl, rfl, rfl⟩

theorem SameButCache.trans {A B C : InvA K} (h : SameButCache A B) (h' : SameButCache B C) :
    SameButCache A C :=
  ⟨h'.mat.trans h.mat, h'.tG.trans h.tG, h'.cr.trans h.cr, h'.an.trans h.an, h'.al.trans h.al,
    h'.vi.trans h.vi⟩

theorem SameButCache.aligned {A B : InvA K} {n : ℕ} (h : SameButCache A B) (ha : A.Aligned n) :
    B.Aligned n :=
  ⟨h.cr ▸ ha.cr, h.an ▸ ha.an, h.al ▸ ha.al, h.vi ▸ ha.vi⟩

theorem computeG0Col_spec {G0 : Op → Op → K} {junk : ℕ → ℕ → K} {A : InvA K} {n c : ℕ}
    (hA : A.Aligned n) (hm : A.mat.rows = n) (hC : CacheOK G0 A n) (hc : c < n) :
    ∃ A' g, A.computeG0Col G0 junk c = .ok (A', g) ∧ SameButCache A A' ∧ CacheOK G0 A' n ∧
      ∀ i < n, g i = G0 (A.an.getD i default) (A.cr.getD c default) := by
  unfold InvA.computeG0Col
  simp only [Res.assert_true (show c < A.idx.length by rw [hC.len]; exact hc), Res.bind_ok, hm]
  by_cases hix : 0 ≤ A.idx.getD c (-1)
  · obtain ⟨h1, h2, h3⟩ := hC.col c hc hix
    rw [if_pos hix]
    simp only [Res.assert_true (show (A.idx.getD c (-1)).toNat < A.cache.cols ∧ n ≤ A.cache.rows from
      ⟨h2, hC.rows.ge⟩), Res.bind_ok, Res.pure_eq]
    exact ⟨A, _, rfl, SameButCache.refl A, hC, fun i hi => h3 i hi⟩
  · rw [if_neg hix]
    set C := (if A.cache.cols ≤ A.num then A.cache.conservativeResize junk n (3 * A.num / 2 + 1)
      else A.cache) with hCdef
    have hCr : C.rows = n := by
      rw [hCdef]; split_ifs
      · rfl
      · exact hC.rows
    have hCc : A.num < C.cols := by
      rw [hCdef]; split_ifs with h
      · show A.num < 3 * A.num / 2 + 1; omega
      · omega
    have hold : ∀ i < n, ∀ j, j < A.num → j < A.cache.cols → j < C.cols ∧ C.val i j = A.cache.val i j := by
      intro i hi j hj hj'
      rw [hCdef]; split_ifs with h
      · exact ⟨by show j < 3 * A.num / 2 + 1; omega,
          DMat.conservativeResize_val ⟨by rw [hC.rows]; exact hi, hj'⟩⟩
      · exact ⟨hj', rfl⟩
    simp only [Res.assert_true (show n ≤ C.rows ∧ A.num < C.cols ∧ n ≤ A.an.length ∧ c < A.cr.length from
      ⟨hCr.ge, hCc, hA.an.ge, by rw [hA.cr]; exact hc⟩), Res.bind_ok, Res.pure_eq]
    refine ⟨_, _, rfl, ⟨rfl, rfl, rfl, rfl, rfl, rfl⟩, ⟨by simp [hC.len], hCr, ?_⟩, ?_⟩
    · intro c' hc' hix'
      by_cases hcc : c' = c
      · subst hcc
        have e : (A.idx.set c' (A.num : ℤ)).getD c' (-1) = (A.num : ℤ) := by
          rw [List.getD_eq_getElem _ _ (by simp [hC.len, hc'])]; simp
        simp only [e, Int.toNat_natCast]
        refine ⟨by omega, hCc, fun i hi => ?_⟩
        simp [hi]
      · have e : (A.idx.set c (A.num : ℤ)).getD c' (-1) = A.idx.getD c' (-1) := by
          rw [List.getD_eq_getElem _ _ (by simp [hC.len, hc']), List.getD_eq_getElem _ _ (by simp [hC.len, hc'])]
          rw [List.getElem_set_ne (by omega)]
        simp only [e] at hix' ⊢
        obtain ⟨h1, h2, h3⟩ := hC.col c' hc' hix'
        refine ⟨by omega, (hold 0 (by omega) _ h1 h2).1, fun i hi => ?_⟩
        rw [if_neg (by omega), (hold i hi _ h1 h2).2]
        exact h3 i hi
    · intro i hi
      simp [hi]

theorem slowCols_spec {G0 : Op → Op → K} {junk : ℕ → ℕ → K} {A : InvA K} {n : ℕ} {cs : List ℕ}
    (hA : A.Aligned n) (hm : A.mat.rows = n) (hC : cs ≠ [] → CacheOK G0 A n) (hcs : ∀ c ∈ cs, c < n) :
    ∃ A' gs, A.slowCols G0 junk cs = .ok (A', gs) ∧ SameButCache A A' ∧ (CacheOK G0 A n → CacheOK G0 A' n) ∧
      gs.length = cs.length ∧ ∀ k (hk : k < cs.length), ∀ i < n,
        (gs.getD k fun _ => 0) i = G0 (A.an.getD i default) (A.cr.getD cs[k] default) := by
  induction cs generalizing A with
  | nil => exact ⟨A, [], rfl, SameButCache.refl A, id, rfl, fun k hk => absurd hk (by simp)⟩
  | cons c cs ih =>
    obtain ⟨A1, g, e1, s1, c1, g1⟩ := computeG0Col_spec (junk := junk) hA hm (hC (by simp)) (hcs c (by simp))
    obtain ⟨A2, gs, e2, s2, c2, l2, g2⟩ := ih (A := A1) (s1.aligned hA) (s1.mat ▸ hm) (fun _ => c1)
      (fun c' h' => hcs c' (by simp [h']))
    refine ⟨A2, g :: gs, ?_, s1.trans s2, fun _ => c2 c1, by simp [l2], ?_⟩
    · simp only [InvA.slowCols, e1, e2, Res.bind_ok, Res.pure_eq]
    · intro k hk i hi
      cases k with
      | zero => simpa using g1 i hi
      | succ k =>
        have := g2 k (by simpa using hk) i hi
        rw [s1.an, s1.cr] at this
        simpa using this

/-- Position of an element in the filtered list. -/
theorem filter_take_getElem {α : Type} (p : α → Bool) (l : List α) (i : ℕ) (hi : i < l.length)
    (h : p l[i] = true) :
    ∃ hk : ((l.take i).filter p).length < (l.filter p).length,
      (l.filter p)[((l.take i).filter p).length] = l[i] := by
  induction l generalizing i with
  | nil => simp at hi
  | cons a l ih =>
    cases i with
    | zero =>
      simp only [List.getElem_cons_zero] at h
      simp [h]
    | succ i =>
      simp only [List.getElem_cons_succ] at h
      obtain ⟨hk, e⟩ := ih i (by simpa using hi) h
      by_cases ha : p a = true
      · simp only [List.take_succ_cons, List.filter_cons_of_pos ha, List.length_cons, List.getElem_cons_succ]
        exact ⟨by omega, e⟩
      · simp only [List.take_succ_cons, List.filter_cons_of_neg ha, List.getElem_cons_succ]
        exact ⟨hk, e⟩

/-- The fast formula. -/
theorem fast_column {n : ℕ} {X : DMat K} {f : ℕ → K} {g0 : ℕ → ℕ → K} (hX : IsInvOf X n (specA f g0))
    {i j : ℕ} (hi : i < n) (hj : j < n) (hf : f j ≠ 1) :
    (f j * X.val i j - if i = j then 1 else 0) / (f j - 1) = ∑ p ∈ Finset.range n, X.val i p * g0 p j := by
  have h := hX.sum_left hi hj
  have e : ∑ k ∈ Finset.range n, X.val i k * specA f g0 k j =
      f j * X.val i j - (f j - 1) * ∑ p ∈ Finset.range n, X.val i p * g0 p j := by
    have e1 : ∀ k, X.val i k * specA f g0 k j =
        (if k = j then X.val i k * f j else 0) - (f j - 1) * (X.val i k * g0 k j) := by
      intro k
      unfold specA
      split_ifs <;> ring
    rw [Finset.sum_congr rfl fun k _ => e1 k, Finset.sum_sub_distrib, Finset.sum_ite_eq',
      if_pos (Finset.mem_range.mpr hj), Finset.mul_sum]
    ring
  rw [e] at h
  rw [div_eq_iff (sub_ne_zero.mpr hf), ← h]
  ring

theorem evalGijColPart_eq {NI : K} {A : InvA K} {i j : ℕ} :
    InvA.evalGijColPart NI A i j = (specF NI (A.al.getD j 0) * A.mat.val i j - if i = j then 1 else 0) /
      (specF NI (A.al.getD j 0) - 1) := by
  unfold InvA.evalGijColPart
  simp only [evalF_eq]
  by_cases h : i = j
  · simp [h]
  · simp [h]

end CTInt
