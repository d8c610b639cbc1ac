import Verif.Proofs.FockBroken

/-!
# The weights of the self-energy, one vertex picked out
-/

set_option linter.all false

namespace CTInt

open NormedSpace Matrix ComplexOrder MeasureTheory Filter

/-! ## Ways to pick an element -/

section lists

variable {α : Type}

/-- All ways to split a list at an element. -/
def splits : List α → List (List α × α × List α)
  | [] => []
  | a :: l => ([], a, l) :: (splits l).map fun x => (a :: x.1, x.2.1, x.2.2)

theorem splits_eq [Inhabited α] (l : List α) : splits l = (List.range l.length).map fun q => (l.take q, l.getD q default, l.drop (q + 1)) := by
  induction l with
  | nil => rfl
  | cons a l ih =>
    rw [splits, ih, List.length_cons, List.range_succ_eq_map, List.map_cons, List.map_map, List.map_map]
    congr 1

theorem splits_mem {l : List α} {x : List α × α × List α} (h : x ∈ splits l) : x.1 ++ x.2.1 :: x.2.2 = l := by
  induction l generalizing x with
  | nil => simp [splits] at h
  | cons a l ih =>
    rcases List.mem_cons.1 h with rfl | h
    · rfl
    · obtain ⟨y, hy, rfl⟩ := List.mem_map.1 h
      simp [ih hy]

theorem splits_append (l l' : List α) : splits (l ++ l') =
    (splits l).map (fun x => (x.1, x.2.1, x.2.2 ++ l')) ++ (splits l').map fun x => (l ++ x.1, x.2.1, x.2.2) := by
  induction l with
  | nil => simp [splits]
  | cons a l ih =>
    rw [List.cons_append, splits, ih, splits]
    simp [Function.comp_def]

theorem splits_filter {M : Type} [AddCommMonoid M] (P : α → Bool) (F : List α × α × List α → M) (l : List α) :
    ((splits (l.filter P)).map F).sum = ((splits l).map fun x => if P x.2.1 then F (x.1.filter P, x.2.1, x.2.2.filter P) else 0).sum := by
  induction l generalizing F with
  | nil => rfl
  | cons a l ih =>
    rw [splits, List.map_cons, List.sum_cons, List.map_map, List.filter_cons]
    by_cases h : P a
    · rw [if_pos h, splits, List.map_cons, List.sum_cons, List.map_map, ih]
      simp [h, Function.comp_def]
    · rw [if_neg h, ih]
      simp [h, Function.comp_def]

theorem splits_flatMap {α β : Type} {M : Type} [AddCommMonoid M] (R : β → List α) (Φ : α → List α → M) (hΦ : ∀ a l l', List.Perm l l' → Φ a l = Φ a l') (xs : List β) :
    ((splits (xs.flatMap R)).map fun x => Φ x.2.1 (x.1 ++ x.2.2)).sum =
      ((splits xs).map fun y => ((splits (R y.2.1)).map fun x => Φ x.2.1 (x.1 ++ x.2.2 ++ (y.1 ++ y.2.2).flatMap R)).sum).sum := by
  induction xs generalizing Φ with
  | nil => rfl
  | cons p xs ih =>
    rw [List.flatMap_cons, splits_append, List.map_append, List.sum_append, splits, List.map_cons, List.sum_cons, List.map_map, List.map_map, List.map_map]
    congr 1
    · simp [Function.comp_def]
    · have := ih (fun a m => Φ a (R p ++ m)) (fun a l l' h => hΦ a _ _ (h.append_left _))
      simp only [Function.comp_def, List.append_assoc] at this ⊢
      rw [this]
      congr 1
      refine List.map_congr_left fun y _ => ?_
      congr 1
      refine List.map_congr_left fun x _ => ?_
      refine hΦ _ _ _ ?_
      simp only [List.cons_append, List.flatMap_cons, List.flatMap_append]
      refine List.Perm.trans List.perm_append_comm ?_
      simp only [List.append_assoc]
      refine List.Perm.append_left _ (List.Perm.append_left _ ?_)
      refine List.Perm.trans (List.Perm.of_eq (List.append_assoc _ _ _).symm) ?_
      exact List.perm_append_comm

end lists

section pick

variable {K : Type} [RCLike K] [DecidableEq K]

/-- The sign of the fold and the weight of the bin. -/
noncomputable def binSign (β : ℝ) (n i : ℕ) (u : ℝ) : ℝ :=
  (-1) ^ ⌊u / β⌋ * (if β * i / n ≤ foldTime β u ∧ foldTime β u < β * (i + 1) / n then n / β else 0)

/-- The determinants of the pairs `M` of all flavors and the annihilator of `ρ`, with a creator of flavor `z` on site `b` at `-t`. -/
noncomputable def brokenDet (c : Ctx K) (G : ℝ → ℕ → ℕ → ℕ → K) (z b : ℕ) (t : ℝ) (ρ : OpRow K) (M : List (OpRow K)) : K :=
  ∏ fl ∈ Finset.range c.nf, if fl = z then
      oDet (fun σ τ => c.G0 σ.an τ.cr) (fun σ => G (σ.an.time + t) z σ.an.site b) ρ (M.filter fun σ => decide (σ.cr.flavor = fl))
    else detN (M.filter fun σ => decide (σ.cr.flavor = fl)).length (rowG c.G0 (M.filter fun σ => decide (σ.cr.flavor = fl)))

theorem brokenDet_perm (c : Ctx K) (G : ℝ → ℕ → ℕ → ℕ → K) (z b : ℕ) (t : ℝ) (ρ : OpRow K) {M M' : List (OpRow K)} (h : M.Perm M') :
    brokenDet c G z b t ρ M = brokenDet c G z b t ρ M' := by
  unfold brokenDet
  refine Finset.prod_congr rfl fun fl _ => ?_
  split_ifs
  · exact oDet_perm _ _ _ (h.filter _)
  · exact detG_perm _ (h.filter _)

/-- What one pair contributes. -/
noncomputable def sigTerm (c : Ctx K) (β : ℝ) (n i : ℕ) (G : ℝ → ℕ → ℕ → ℕ → K) (z A b : ℕ) (t : ℝ) (ρ : OpRow K) (M : List (OpRow K)) : K :=
  if ρ.cr.flavor = z ∧ ρ.cr.site = A then ((binSign β n i (ρ.cr.time + t) : ℝ) : K) * brokenDet c G z b t ρ M else 0

theorem sigTerm_perm (c : Ctx K) (β : ℝ) (n i : ℕ) (G : ℝ → ℕ → ℕ → ℕ → K) (z A b : ℕ) (t : ℝ) (ρ : OpRow K) {M M' : List (OpRow K)} (h : M.Perm M') :
    sigTerm c β n i G z A b t ρ M = sigTerm c β n i G z A b t ρ M' := by
  unfold sigTerm
  rw [brokenDet_perm c G z b t ρ h]

/-- All pairs of a configuration. -/
def allRows (c : Ctx K) (x : List Pt) : List (OpRow K) := x.flatMap fun p => rowsAllV c.NI c.tbl (vertAt p)

/-- What the pairs of one vertex contribute. -/
noncomputable def pickTerm (c : Ctx K) (β : ℝ) (n i : ℕ) (G : ℝ → ℕ → ℕ → ℕ → K) (z A b : ℕ) (t : ℝ) (p : Pt) (x : List Pt) : K :=
  ((splits (rowsAllV c.NI c.tbl (vertAt p))).map fun y => sigTerm c β n i G z A b t y.2.1 (y.1 ++ y.2.2 ++ allRows c x)).sum *
    uWeight c.tbl ((p :: x).map vertAt)

theorem pickTerm_perm (c : Ctx K) (β : ℝ) (n i : ℕ) (G : ℝ → ℕ → ℕ → ℕ → K) (z A b : ℕ) (t : ℝ) (p : Pt) {x x' : List Pt} (h : x.Perm x') :
    pickTerm c β n i G z A b t p x = pickTerm c β n i G z A b t p x' := by
  unfold pickTerm
  rw [uWeight_perm c (h.cons p)]
  congr 2
  refine List.map_congr_left fun y _ => ?_
  exact sigTerm_perm _ _ _ _ _ _ _ _ _ _ ((h.flatMap_right _).append_left _)

theorem sum_range_map {M : Type} [AddCommMonoid M] (n : ℕ) (f : ℕ → M) : ((List.range n).map f).sum = ∑ q ∈ Finset.range n, f q := by
  induction n with
  | zero => rfl
  | succ n ih => rw [List.range_succ, List.map_append, List.sum_append, ih, Finset.sum_range_succ]; simp

theorem list_sum_mul {α : Type} (l : List α) (f : α → K) (k : K) : (l.map fun a => f a * k).sum = (l.map f).sum * k := by
  induction l with
  | nil => simp
  | cons a l ih => simp only [List.map_cons, List.sum_cons, ih, add_mul]

theorem binnedSum_pick (c : Ctx K) (β : ℝ) (n i : ℕ) (G : ℝ → ℕ → ℕ → ℕ → K) (z A b : ℕ) (t : ℝ) (x : List Pt) :
    binnedSum c β n i G z A b t (x.map vertAt) = ((splits x).map fun y => pickTerm c β n i G z A b t y.2.1 (y.1 ++ y.2.2)).sum := by
  set l := rowsOf c.NI c.tbl (x.map vertAt) z with hl
  have hl' : l = (allRows c x).filter fun ρ => decide (ρ.cr.flavor = z) := by
    rw [hl, rowsOf_filter, List.flatMap_map]
    rfl
  have hfl : ∀ fl, rowsOf c.NI c.tbl (x.map vertAt) fl = (allRows c x).filter fun ρ => decide (ρ.cr.flavor = fl) := by
    intro fl
    rw [rowsOf_filter, List.flatMap_map]
    rfl
  have e1 : binnedSum c β n i G z A b t (x.map vertAt) = ((splits l).map fun y => (if y.2.1.cr.site = A then ((binSign β n i (y.2.1.cr.time + t) : ℝ) : K) *
      ∏ fl ∈ Finset.range c.nf, (if fl = z then oDet (fun σ τ => c.G0 σ.an τ.cr) (fun σ => G (σ.an.time + t) z σ.an.site b) y.2.1 (y.1 ++ y.2.2)
        else detN ((allRows c x).filter fun ρ => decide (ρ.cr.flavor = fl)).length (rowG c.G0 ((allRows c x).filter fun ρ => decide (ρ.cr.flavor = fl)))) else 0) *
        uWeight c.tbl (x.map vertAt)).sum := by
    rw [splits_eq, List.map_map, sum_range_map]
    unfold binnedSum
    rw [interacting_vertAt, ← hl]
    refine Finset.sum_congr rfl fun q hq => ?_
    have hq := Finset.mem_range.1 hq
    simp only [Function.comp_apply]
    by_cases hA : (l.getD q default).cr.site = A
    · rw [if_pos hA, if_pos hA]
      unfold weightOther
      rw [interacting_vertAt, mul_assoc]
      congr 1
      congr 1
      refine Finset.prod_congr rfl fun fl _ => ?_
      split_ifs with h
      · rw [h, ← hl]
        exact otherCreator_oDet c.G0 G z l hq b t
      · rw [hfl]
    · rw [if_neg hA, if_neg hA, zero_mul]
  rw [e1, list_sum_mul, hl', splits_filter]
  have e2 : ((splits (allRows c x)).map fun y => if decide (y.2.1.cr.flavor = z) = true then
      (if y.2.1.cr.site = A then ((binSign β n i (y.2.1.cr.time + t) : ℝ) : K) *
      ∏ fl ∈ Finset.range c.nf, (if fl = z then oDet (fun σ τ => c.G0 σ.an τ.cr) (fun σ => G (σ.an.time + t) z σ.an.site b) y.2.1
        (y.1.filter (fun ρ => decide (ρ.cr.flavor = z)) ++ y.2.2.filter fun ρ => decide (ρ.cr.flavor = z))
        else detN ((allRows c x).filter fun ρ => decide (ρ.cr.flavor = fl)).length (rowG c.G0 ((allRows c x).filter fun ρ => decide (ρ.cr.flavor = fl)))) else 0) else 0) =
      (splits (allRows c x)).map fun y => sigTerm c β n i G z A b t y.2.1 (y.1 ++ y.2.2) := by
    refine List.map_congr_left fun y hy => ?_
    have hy' := splits_mem hy
    unfold sigTerm
    by_cases h1 : y.2.1.cr.flavor = z
    · rw [if_pos (decide_eq_true h1)]
      by_cases h2 : y.2.1.cr.site = A
      · rw [if_pos h2, if_pos ⟨h1, h2⟩]
        congr 1
        unfold brokenDet
        refine Finset.prod_congr rfl fun fl _ => ?_
        split_ifs with h3
        · rw [h3, List.filter_append]
        · have : (allRows c x).filter (fun ρ => decide (ρ.cr.flavor = fl)) = (y.1 ++ y.2.2).filter fun ρ => decide (ρ.cr.flavor = fl) := by
            rw [← hy', List.filter_append, List.filter_append, List.filter_cons, if_neg]
            simp only [decide_eq_true_eq, h1]
            exact fun q => h3 q.symm
          rw [this]
      · rw [if_neg h2, if_neg (fun q => h2 q.2)]
    · rw [if_neg (by simpa using h1), if_neg (fun q => h1 q.1)]
  rw [e2]
  have e3 := splits_flatMap (fun p => rowsAllV c.NI c.tbl (vertAt p)) (sigTerm c β n i G z A b t) (fun a l l' h => sigTerm_perm c β n i G z A b t a h) x
  refine (congrArg (· * uWeight c.tbl (x.map vertAt)) e3).trans ?_
  rw [← list_sum_mul]
  congr 1
  refine List.map_congr_left fun y hy => ?_
  unfold pickTerm
  congr 1
  refine uWeight_perm c ?_
  rw [← splits_mem hy]
  exact List.perm_middle

end pick

end CTInt
