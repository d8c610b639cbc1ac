import Verif.Proofs.Move
import Verif.Spec.Exchange

/-!
# Removing arbitrary rows and columns: helper lemmas for C12, C13, C14
-/

set_option linter.all false

open Matrix

namespace CTInt

variable {K : Type} [Field K]

theorem exchangeAll_eq {α : Type} (l : List (ℕ × ℕ)) (a : ℕ → α) (i : ℕ) :
    exchangeAll l a i = a (permOf l i) := by
  induction l generalizing a with
  | nil => rfl
  | cons p l ih =>
    obtain ⟨p, q⟩ := p
    rw [exchangeAll, ih, permOf_cons_apply]
    simp only [Equiv.swap_apply_def]
    split_ifs <;> rfl

theorem Ascending.rev {n : ℕ} {rs : List ℕ} (h : Ascending n rs) :
    rs.reverse.Pairwise (· > ·) ∧ ∀ r ∈ rs.reverse, r < n := by
  refine ⟨?_, fun r hr => h.2 r (by simpa using hr)⟩
  rw [List.pairwise_reverse]; exact h.1

theorem keptAt_reverse (n : ℕ) (rs : List ℕ) (i : ℕ) : keptAt n rs.reverse i = keptAt n rs i := by
  simp [keptAt, kept]

/-- Row order of the ordered move for an ascending list. -/
theorem mv_ascending {N : ℕ} {rs : List ℕ} (h : Ascending (N + rs.length) rs) :
    (∀ j < rs.length, permOf (mvList rs.reverse (N + rs.length)) (N + j) = rs.getD j 0) ∧
    (∀ i < N, permOf (mvList rs.reverse (N + rs.length)) i = keptAt (N + rs.length) rs i) := by
  obtain ⟨h1, h2⟩ := h.rev
  have := permOf_mvList (N := N) h1 (by simpa using h2)
  simp only [List.length_reverse] at this
  refine ⟨fun j hj => ?_, fun i hi => by rw [this.2 i hi, keptAt_reverse]⟩
  have h3 := this.1 (rs.length - 1 - j) (by omega)
  rw [show N + rs.length - 1 - (rs.length - 1 - j) = N + j by omega] at h3
  rw [h3, List.getElem_reverse, List.getD_eq_getElem _ _ hj]
  congr 1; omega

/-- Row order after the swap-to-the-end exchanges for an ascending list. -/
theorem sw_ascending {N : ℕ} {rs : List ℕ} (h : Ascending (N + rs.length) rs) :
    (∀ q ∈ Src.swapList rs.length (N + rs.length) rs, q.1 < N + rs.length ∧ q.2 < N + rs.length) ∧
    (∀ j < rs.length, permOf (Src.swapList rs.length (N + rs.length) rs) (N + j) = rs.getD j 0) ∧
    (∀ i < N, permOf (Src.swapList rs.length (N + rs.length) rs) i < N + rs.length ∧
      permOf (Src.swapList rs.length (N + rs.length) rs) i ∉ rs) := by
  obtain ⟨h1, h2⟩ := h.rev
  rw [swapList_eq]
  have := permOf_swapsDesc (N := N) h1 (by simpa using h2)
  simp only [List.length_reverse, List.mem_reverse] at this
  refine ⟨swapsDesc_bound h2 (by simp), fun j hj => ?_, this.2⟩
  have h3 := this.1 (rs.length - 1 - j) (by omega)
  rw [show N + rs.length - 1 - (rs.length - 1 - j) = N + j by omega] at h3
  rw [h3, List.getElem_reverse, List.getD_eq_getElem _ _ hj]
  congr 1; omega

/-- Total distance as computed by the code (ascending loop) and by the descending lists. -/
theorem dist_sum (rs cs : List ℕ) (h : rs.length = cs.length) :
    ((List.range rs.length).map fun j =>
      ((rs.getD j 0 : ℤ) - (cs.getD j 0 : ℤ)).natAbs).sum =
    (List.zipWith (fun (r c : ℕ) => ((r : ℤ) - (c : ℤ)).natAbs) rs.reverse cs.reverse).sum := by
  rw [← List.reverse_zipWith h, List.sum_reverse]
  congr 1
  apply List.ext_getElem
  · simp [h]
  · intro i h1 h2
    have h3 : i < rs.length := by simpa using h1
    simp [h3, h ▸ h3]

/-- Jacobi's identity for complementary minors, in the form used by the code. -/
theorem jacobi {N M : ℕ} {g : ℕ → ℕ → K} {X : DMat K} {rs cs : List ℕ} (hX : IsInvOf X (N + M) g)
    (hr : Ascending (N + M) rs) (hc : Ascending (N + M) cs) (hrl : rs.length = M)
    (hcl : cs.length = M) :
    (-1) ^ (((List.range M).map fun j =>
        ((rs.getD j 0 : ℤ) - (cs.getD j 0 : ℤ)).natAbs).sum) *
      detN M (fun i j => X.val (cs.getD i 0) (rs.getD j 0)) =
    detN N (fun i j => g (keptAt (N + M) rs i) (keptAt (N + M) cs j)) / detN (N + M) g := by
  obtain ⟨r1, r2⟩ := hr.rev
  obtain ⟨c1, c2⟩ := hc.rev
  have br := mvList_bound r1 r2
  have bc := mvList_bound c1 c2
  have h0 := hX.det_ne_zero
  have hX' := (hX.rows_permOf br).cols_permOf bc
  have hd := detN_down hX'
  subst hrl
  have mr := mv_ascending hr
  rw [← hcl] at hc
  have mc := mv_ascending hc
  rw [hcl] at mc
  rw [detN_cols_permOf (g := fun i j => g (permOf (mvList rs.reverse (N + rs.length)) i) j) bc,
    detN_rows_permOf br, swapSign_mvList, swapSign_mvList] at hd
  have e1 : detN N (fun i j => g (permOf (mvList rs.reverse (N + rs.length)) i)
      (permOf (mvList cs.reverse (N + rs.length)) j)) =
      detN N (fun i j => g (keptAt (N + rs.length) rs i) (keptAt (N + rs.length) cs j)) := by
    unfold detN; congr 1
    exact toM_congr fun i hi j hj => by rw [mr.2 i hi, mc.2 j hj]
  have e2 : ∀ Y : DMat K, Y = DMat.block ⟨N + rs.length, N + rs.length, fun i j =>
      X.val (permOf (mvList cs.reverse (N + rs.length)) i)
      (permOf (mvList rs.reverse (N + rs.length)) j)⟩ N N rs.length rs.length →
      Y.det = detN rs.length (fun i j => X.val (cs.getD i 0) (rs.getD j 0)) := by
    rintro _ rfl
    unfold detN; rw [DMat.det_eq (n := rs.length) rfl]; congr 1
    exact toM_congr fun i hi j hj => by
      show X.val (permOf _ (N + i)) (permOf _ (N + j)) = _
      rw [mr.1 j hj, mc.1 i hi]
  have e3 := mvSign_mul (K := K) (n := N + rs.length) (by simp [hcl]) r1 c1 r2 c2
  rw [dist_sum rs cs hcl.symm, ← e3]
  rw [e1, e2 _ rfl] at hd
  rw [hd]
  have s : ∀ (ps : List ℕ) n, (mvSign ps n : K) * mvSign ps n = 1 := by
    intro ps
    induction ps with
    | nil => intro n; simp [mvSign]
    | cons p ps ih =>
      intro n
      rw [mvSign, mul_mul_mul_comm, ih, ← mul_pow]; simp
  have s1 : (mvSign rs.reverse (N + rs.length) : K) ≠ 0 := fun h => by
    have := s rs.reverse (N + rs.length); rw [h] at this; simp at this
  have s2 : (mvSign cs.reverse (N + rs.length) : K) ≠ 0 := fun h => by
    have := s cs.reverse (N + rs.length); rw [h] at this; simp at this
  field_simp

end CTInt
