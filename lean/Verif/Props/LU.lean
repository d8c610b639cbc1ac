import Verif.Proofs.LU
import Verif.Proofs.PartMore
import Verif.Props.DetMatrix
import Verif.Props.Partitioned

/-!
# Property C75 : determinants as sorted products, and their phases
-/

set_option linter.all false

namespace CTInt

variable {K : Type} [RCLike K] [DecidableEq K]

/-- C75, `lu_product`: for every non-empty matrix the factors returned are as many as there are rows, and their product is
    the determinant, whichever permutations the decomposition chose. -/
theorem C75_lu_product {n : ℕ} {A : Matrix (Fin n) (Fin n) K} (d : FullPivLU n A) (hn : 0 < n) :
    ∃ l, luProduct d = .ok l ∧ l.prod = A.det ∧ l.length = n := luProduct_spec d hn

/-- C75, `lu_product` of an empty matrix is undefined: it writes to the first of no factors. -/
theorem C75_lu_product_empty {A : Matrix (Fin 0) (Fin 0) K} (d : FullPivLU 0 A) : luProduct d = .ub := rfl

/-- C75, `phase_of_determinant`: for every matrix the value is det/|det|, and zero if the determinant is zero. -/
theorem C75_phase {n : ℕ} {A : Matrix (Fin n) (Fin n) K} (d : FullPivLU n A) :
    phaseOfDeterminant d * ((‖A.det‖ : ℝ) : K) = A.det ∧ (A.det ≠ 0 → ‖phaseOfDeterminant d‖ = 1) ∧
      (A.det = 0 → phaseOfDeterminant d = 0) := by
  rw [phase_spec]
  unfold mysign
  refine ⟨?_, fun h => ?_, fun h => by rw [h]; simp⟩
  · by_cases h : A.det = 0
    · rw [h]; simp
    · exact div_mul_cancel₀ _ (by simpa using h)
  · rw [norm_div, RCLike.norm_ofReal, abs_norm, div_self (norm_ne_zero_iff.mpr h)]

variable {Cd Co T : Type} [LinearOrder T] {o : OpSys K Cd Co T} {fl : FlSys Cd Co}

/-- C75, `DeterminantMatrix::compute_determinant_as_product`: after every history the product of the factors is the
    determinant of the configuration, the factors are ordered by modulus, none is zero, and there are as many as pairs of
    operators (one if there are none). -/
theorem C75_as_product (lu : ∀ (n : ℕ) (A : Matrix (Fin n) (Fin n) K), FullPivLU n A) {srt : List K → List K}
    (hs : SortsByModulus srt) {dbg : Bool} {junk : ℕ → ℕ → K} {j s : DM K Cd Co T} {A : Conf Cd Co}
    (h : Reached o dbg junk j A s) :
    ∃ l, s.determinantAsProduct lu srt = .ok l ∧ l.prod = A.det o ∧ (l.Pairwise fun a b => ‖a‖ ≤ ‖b‖) ∧
      (∀ x ∈ l, x ≠ 0) ∧ l.length = max 1 A.cds.length := by
  have hg := h.good
  obtain ⟨l, e, h0, h1, h2, h3⟩ := DM.asProduct_spec (lu := lu) hs hg.shows.inv
  have hp : l.prod = A.det o := by
    by_cases hn : A.cds.length = 0
    · rw [h0 hn]
      unfold Conf.det
      rw [hn]
      simp [detN, toM]
    · rw [h3 (Nat.pos_of_ne_zero hn), hg.shows.det]
  refine ⟨l, e, hp, h2, fun x hx h0 => hg.det_ne ?_, h1⟩
  rw [← hp]
  exact List.prod_eq_zero (h0 ▸ hx)

/-- C75, `DeterminantMatrixPartitioned::compute_determinant_as_product`: the same for the determinant matrix cut into
    sectors; the number of factors is the sum over the sectors. -/
theorem C75_as_product_sectors (lu : ∀ (n : ℕ) (A : Matrix (Fin n) (Fin n) K), FullPivLU n A) {srt : List K → List K}
    (hs : SortsByModulus srt) (hc : Connects o fl) {dbg : Bool} {junk : ℕ → ℕ → K} {j : ℕ → DM K Cd Co T} {np : ℤ}
    {lab : ℕ → ℕ} {s : PDM K Cd Co T} {A : Conf Cd Co} (h : PReached o fl dbg junk j np lab A s) :
    ∃ l, s.determinantAsProduct lu srt = .ok l ∧ l.prod = A.det o ∧ (l.Pairwise fun a b => ‖a‖ ≤ ‖b‖) ∧
      (∀ x ∈ l, x ≠ 0) ∧ l.length = ∑ k ∈ Finset.range s.ns, max 1 (A.sec fl lab k).cds.length := by
  obtain ⟨hsec, hbl, m, hl, hg⟩ := h.good hc
  have hm : ∀ k < s.ns, ∃ l, (m k).determinantAsProduct lu srt = .ok l ∧ l.length = max 1 (A.sec fl lab k).cds.length ∧
      l.prod = (m k).computeDeterminant := by
    intro k hk
    have hgk := hg.good k hk
    obtain ⟨l, e, h0, h1, h2, h3⟩ := DM.asProduct_spec (lu := lu) hs hgk.shows.inv
    refine ⟨l, e, h1, ?_⟩
    by_cases hn : (A.sec fl lab k).cds.length = 0
    · rw [h0 hn, hgk.shows.det]
      unfold Conf.det
      rw [hn]
      simp [detN, toM]
    · exact h3 (Nat.pos_of_ne_zero hn)
  have hfold : ∀ n ≤ s.ns, ∃ l, Res.foldl (fun r m => do
        let vec ← DM.determinantAsProduct lu srt m
        pure (r ++ vec)) [] (tab n m) = .ok l ∧ l.prod = ((tab n m).map DM.computeDeterminant).prod ∧
      l.length = ∑ k ∈ Finset.range n, max 1 (A.sec fl lab k).cds.length := by
    intro n
    induction n with
    | zero => intro _; exact ⟨[], rfl, rfl, rfl⟩
    | succ n ih =>
      intro hn
      obtain ⟨l, e, h1, h2⟩ := ih (by omega)
      obtain ⟨v, e', h3, h4⟩ := hm n (by omega)
      have ht : tab (n + 1) m = tab n m ++ [m n] := by
        unfold tab; rw [List.range_succ, List.map_append]; rfl
      refine ⟨l ++ v, ?_, ?_, ?_⟩
      · rw [ht, Res.foldl_append, e, Res.bind_ok, Res.foldl_cons, e', Res.bind_ok, Res.pure_eq, Res.bind_ok, Res.foldl_nil]
      · rw [ht, List.map_append, List.prod_append, List.prod_append, h1, h4]; simp
      · rw [List.length_append, h2, h3, Finset.sum_range_succ]
  obtain ⟨l, e, h1, h2⟩ := hfold s.ns le_rfl
  have hdet : (srt (scaleHead (s.perm : K) l)).prod = A.det o := by
    rw [← hg.computeDet hl hbl, (hs.perm _).prod_eq]
    unfold PDM.computeDeterminant
    rw [hg.mats, tab_take le_rfl, ← h1]
    by_cases hne : l = []
    · have hz : s.ns = 0 := by
        by_contra hz
        rw [hne, List.length_nil] at h2
        have := Finset.sum_eq_zero_iff.mp h2.symm 0 (Finset.mem_range.mpr (Nat.pos_of_ne_zero hz))
        omega
      have hnf : fl.nf = 0 := by
        by_contra hnf
        have := hl.lt 0 (Nat.pos_of_ne_zero hnf)
        omega
      have e1 : A.cds = [] := List.eq_nil_iff_forall_not_mem.mpr fun a ha => by
        have := hg.flavCd a ha
        omega
      have e2 : A.cs = [] := List.eq_nil_iff_forall_not_mem.mpr fun a ha => by
        have := hg.flavC a ha
        omega
      have hp := hg.perm
      rw [e1, e2, hz] at hp
      rw [hne, hp]
      simp [scaleHead, secSign, secList, orderSign, outOfOrder, tab]
    · rw [prod_headMul _ hne]
  refine ⟨srt (scaleHead (s.perm : K) l), ?_, hdet, hs.sorted _, fun x hx h0 => hg.det_ne hl hbl ?_, ?_⟩
  · unfold PDM.determinantAsProduct
    rw [hg.mats, tab_take le_rfl, e, Res.bind_ok]
    rfl
  · rw [← hdet]
    exact List.prod_eq_zero (h0 ▸ hx)
  · rw [(hs.perm _).length_eq, length_headMul, h2]

/-! ## Concrete cases -/

section examples

/-- A decomposition for every matrix. -/
noncomputable def luChoice (n : ℕ) (A : Matrix (Fin n) (Fin n) ℝ) : FullPivLU n A := Classical.choice (exists_lu n A)

/-- Sorting by modulus. -/
noncomputable def srtAbs (l : List ℝ) : List ℝ := l.insertionSort fun a b => ‖a‖ ≤ ‖b‖

theorem srtAbs_sorts : SortsByModulus srtAbs :=
  ⟨fun l => l.perm_insertionSort _, fun l => by
    haveI : IsTotal ℝ fun a b => ‖a‖ ≤ ‖b‖ := ⟨fun a b => le_total _ _⟩
    haveI : IsTrans ℝ fun a b => ‖a‖ ≤ ‖b‖ := ⟨fun a b c h h' => h.trans h'⟩
    exact List.pairwise_insertionSort _ l⟩

/-- The real version of the system of C24's examples. -/
noncomputable def sysR : OpSys ℝ ℕ ℕ ℕ := ⟨id, id, fun b a => if b = a + 1 then 2 else 1⟩

theorem detR2 : (Conf.mk [2, 0] [1, 3]).det sysR = 3 := by
  have h1 : byTime sysR.tcd [2, 0] = [0, 2] := by decide
  have h2 : byTime sysR.tc [1, 3] = [1, 3] := by decide
  unfold Conf.det
  rw [h1, h2]
  simp [detN, toM, Matrix.det_fin_two, greenAt, sysR]
  norm_num

/-- Two pairs with determinant 3: two factors, ordered by modulus, whose product is 3. -/
example (junk : ℕ → ℕ → ℝ) (j : DM ℝ ℕ ℕ ℕ) : ∃ s l, Reached sysR true junk j ⟨[2, 0], [1, 3]⟩ s ∧
    s.determinantAsProduct luChoice srtAbs = .ok l ∧ l.prod = 3 ∧ l.length = 2 := by
  obtain ⟨s, hs⟩ := reached_of (o := sysR) true junk j (A := ⟨[2, 0], [1, 3]⟩) rfl (by unfold Conf.Distinct; decide)
    (by rw [detR2]; norm_num)
  obtain ⟨l, e, h1, -, -, h2⟩ := C75_as_product luChoice srtAbs_sorts hs
  exact ⟨s, l, hs, e, h1.trans detR2, h2⟩

/-- Two unconnected flavors. -/
noncomputable def sysPR : OpSys ℝ (ℕ × ℕ) (ℕ × ℕ) ℕ :=
  ⟨Prod.snd, Prod.snd, fun b a => if b.1 = a.1 then (if b.2 = a.2 + 1 then 2 else 1) else 0⟩

theorem connPR : Connects sysPR flP := ⟨fun _ _ _ _ => rfl, fun b a _ _ h _ => if_neg h⟩

theorem detPR : (Conf.mk [(0, 0), (1, 4)] [(0, 3), (1, 1)]).det sysPR = -1 := by
  have h1 : byTime sysPR.tcd [(0, 0), (1, 4)] = [(0, 0), (1, 4)] := by decide
  have h2 : byTime sysPR.tc [(0, 3), (1, 1)] = [(1, 1), (0, 3)] := by decide
  unfold Conf.det
  rw [h1, h2]
  simp [detN, toM, Matrix.det_fin_two, greenAt, sysPR]

/-- One pair per flavor, interleaved: the sectors have one factor each, the product carries the sign of the reordering. -/
example (dbg : Bool) (junk : ℕ → ℕ → ℝ) (j : ℕ → DM ℝ (ℕ × ℕ) (ℕ × ℕ) ℕ) (np : ℤ) :
    ∃ lab s l, PReached sysPR flP dbg junk j np lab ⟨[(0, 0), (1, 4)], [(0, 3), (1, 1)]⟩ s ∧
      s.determinantAsProduct luChoice srtAbs = .ok l ∧ l.prod = -1 := by
  obtain ⟨s0, lab, e0, e1, hs, hr⟩ := C60_full_determinant connPR dbg junk j np
  obtain ⟨h01, hk⟩ := sectorsP hs
  have hv : PValid sysPR flP s0.ns lab ⟨[], []⟩ ⟨[], [], [(0, 0), (1, 4)], [(0, 3), (1, 1)]⟩
      ⟨[(0, 0), (1, 4)], [(0, 3), (1, 1)]⟩ := by
    refine ⟨⟨by decide, by decide, ⟨⟨[], []⟩, by simp, by simp, by simp, by simp⟩, by decide, by decide⟩, fun k hkn => Or.inl ?_⟩
    rcases hk k hkn with rfl | rfl
    · simp only [Conf.sec, Change.sec, flP, List.filter, decide_true, h01.symm, decide_false]
      exact ⟨Or.inl ⟨rfl, rfl⟩, ⟨⟨[], []⟩, ⟨by simp, by simp, by simp, by simp⟩, fun hm => absurd rfl hm.1⟩, by unfold Conf.Distinct; decide⟩
    · simp only [Conf.sec, Change.sec, flP, List.filter, decide_true, h01, decide_false]
      exact ⟨Or.inl ⟨rfl, rfl⟩, ⟨⟨[], []⟩, ⟨by simp, by simp, by simp, by simp⟩, fun hm => absurd rfl hm.1⟩, by unfold Conf.Distinct; decide⟩
  have hh := PHistory.accept (dbg := dbg) _ _ _ [] [] _ hv rfl (by rw [detPR]; norm_num) (fun _ => by simp) (.done _ _ ⟨.refl _, .refl _⟩)
  obtain ⟨s, e, -⟩ := hr _ _ _ hh
  have hre : PReached sysPR flP dbg junk j np lab ⟨[(0, 0), (1, 4)], [(0, 3), (1, 1)]⟩ s := ⟨s0, _, _, e0, e1, hh, e⟩
  obtain ⟨l, el, h1, -⟩ := C75_as_product_sectors luChoice srtAbs_sorts connPR hre
  exact ⟨lab, s, l, hre, el, h1.trans detPR⟩

/-- The exchange matrix has determinant -1: its phase is -1 and the product of the factors is -1. -/
example : phaseOfDeterminant (luChoice 2 !![0, 1; 1, 0]) = -1 ∧
    ∃ l, luProduct (luChoice 2 !![0, 1; 1, 0]) = .ok l ∧ l.prod = -1 := by
  have hd : (!![0, 1; 1, 0] : Matrix (Fin 2) (Fin 2) ℝ).det = -1 := by simp [Matrix.det_fin_two]
  refine ⟨?_, ?_⟩
  · have := (C75_phase (luChoice 2 !![0, 1; 1, 0])).1
    rw [hd] at this
    simpa using this
  · obtain ⟨l, e, h, -⟩ := C75_lu_product (luChoice 2 !![0, 1; 1, 0]) (by norm_num)
    exact ⟨l, e, h.trans hd⟩

end examples

end CTInt
