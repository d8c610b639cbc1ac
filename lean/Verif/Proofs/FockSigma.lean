import Verif.Proofs.FockPick

/-!
# The weights of the self-energy as thermal averages
-/

set_option linter.all false

namespace CTInt

open NormedSpace Matrix ComplexOrder MeasureTheory Filter

variable {K : Type} [RCLike K] {n : Type} [Fintype n] [DecidableEq n] {nf ns : ℕ} {a : ℕ → ℕ → Matrix n n K} {h : ℕ → ℕ → ℕ → K} {β : ℝ}

/-! ## The commutator of an annihilator with a product of pairs -/

/-- The product of pairs at their times. -/
noncomputable def rowsProd (a : ℕ → ℕ → Matrix n n K) (H : Matrix n n K) (R : List (OpRow K)) : Matrix n n K := ((R.map (opsOf a H)).map pairOp).prod

theorem rowsProd_append (a : ℕ → ℕ → Matrix n n K) (H : Matrix n n K) (R R' : List (OpRow K)) : rowsProd a H (R ++ R') = rowsProd a H R * rowsProd a H R' := by
  unfold rowsProd
  rw [List.map_append, List.map_append, List.prod_append]

theorem rowsProd_cons (a : ℕ → ℕ → Matrix n n K) (H : Matrix n n K) (ρ : OpRow K) (R : List (OpRow K)) :
    rowsProd a H (ρ :: R) = pairOp (opsOf a H ρ) * rowsProd a H R := by
  unfold rowsProd
  rw [List.map_cons, List.map_cons, List.prod_cons]

/-- The sum over the creators of flavor `z` on site `A`: the product without this creator. -/
noncomputable def strip (a : ℕ → ℕ → Matrix n n K) (H : Matrix n n K) (z A : ℕ) (R : List (OpRow K)) : Matrix n n K :=
  ((splits R).map fun y => if y.2.1.cr.flavor = z ∧ y.2.1.cr.site = A then rowsProd a H y.1 * (opsOf a H y.2.1).2.1 * rowsProd a H y.2.2 else 0).sum

theorem pair_comm (ha : Annihilators nf ns a) (H : Matrix n n K) {z A : ℕ} (hz : z < nf) (hA : A < ns) {σ : OpRow K} (hσ : RowAt β nf ns σ) :
    atTime H σ.cr.time (a z A) * pairOp (opsOf a H σ) - pairOp (opsOf a H σ) * atTime H σ.cr.time (a z A) =
      if σ.cr.flavor = z ∧ σ.cr.site = A then (opsOf a H σ).2.1 else 0 := by
  have h1 := ha.mixed z hz A hA σ.cr.flavor hσ.flavor σ.cr.site hσ.cr
  have h2 := ha.same z hz A hA σ.cr.flavor hσ.flavor σ.an.site hσ.an
  have e : a z A * ((a σ.cr.flavor σ.cr.site)ᴴ * a σ.cr.flavor σ.an.site) - (a σ.cr.flavor σ.cr.site)ᴴ * a σ.cr.flavor σ.an.site * a z A =
      if σ.cr.flavor = z ∧ σ.cr.site = A then a σ.cr.flavor σ.an.site else 0 := by
    have k1 : a z A * (a σ.cr.flavor σ.cr.site)ᴴ = (if z = σ.cr.flavor ∧ A = σ.cr.site then 1 else 0) - (a σ.cr.flavor σ.cr.site)ᴴ * a z A := by rw [← h1]; abel
    have k2 : a σ.cr.flavor σ.an.site * a z A = - (a z A * a σ.cr.flavor σ.an.site) := by
      rw [eq_neg_iff_add_eq_zero, add_comm]; exact h2
    rw [← mul_assoc, k1, mul_assoc, k2, sub_mul, mul_neg, mul_assoc]
    by_cases hc : σ.cr.flavor = z ∧ σ.cr.site = A
    · rw [if_pos hc, if_pos ⟨hc.1.symm, hc.2.symm⟩]
      simp
    · rw [if_neg hc, if_neg (fun q => hc ⟨q.1.symm, q.2.symm⟩)]
      simp
  have o : pairOp (opsOf a H σ) = atTime H σ.cr.time ((a σ.cr.flavor σ.cr.site)ᴴ * a σ.cr.flavor σ.an.site) - σ.al • (1 : Matrix n n K) := by
    unfold pairOp opsOf
    rw [atTime_mul, Algebra.algebraMap_eq_smul_one, hσ.time', hσ.same]
  have o2 : (opsOf a H σ).2.1 = atTime H σ.cr.time (a σ.cr.flavor σ.an.site) := by
    unfold opsOf
    rw [hσ.time', hσ.same]
  have e' := congrArg (atTime H σ.cr.time) e
  rw [atTime_sub, atTime_mul H _ (a z A), atTime_mul H _ (_ * _) (a z A)] at e'
  rw [o, o2, mul_sub, sub_mul]
  simp only [mul_smul_comm, smul_mul_assoc, mul_one, one_mul]
  rw [sub_sub_sub_cancel_right, e']
  split_ifs
  · rfl
  · simp [atTime]

theorem strip_comm (ha : Annihilators nf ns a) (H : Matrix n n K) {z A : ℕ} (hz : z < nf) (hA : A < ns) {τ : ℝ} {R : List (OpRow K)}
    (hR : ∀ σ ∈ R, RowAt β nf ns σ ∧ σ.cr.time = τ) :
    atTime H τ (a z A) * rowsProd a H R - rowsProd a H R * atTime H τ (a z A) = strip a H z A R := by
  induction R with
  | nil => simp [rowsProd, strip, splits]
  | cons σ R ih =>
    have hσ := hR σ List.mem_cons_self
    have h1 := pair_comm ha H hz hA hσ.1
    have h2 := ih fun σ hσ => hR σ (List.mem_cons_of_mem _ hσ)
    rw [hσ.2] at h1
    have e1 : strip a H z A (σ :: R) = (if σ.cr.flavor = z ∧ σ.cr.site = A then (opsOf a H σ).2.1 else 0) * rowsProd a H R +
        pairOp (opsOf a H σ) * strip a H z A R := by
      unfold strip
      rw [splits, List.map_cons, List.sum_cons, List.map_map]
      congr 1
      · show (if σ.cr.flavor = z ∧ σ.cr.site = A then rowsProd a H [] * (opsOf a H σ).2.1 * rowsProd a H R else 0) = _
        split_ifs
        · simp [rowsProd]
        · simp
      · induction splits R with
        | nil => simp
        | cons y l ih' =>
          simp only [List.map_cons, List.sum_cons, mul_add, ih']
          congr 1
          simp only [Function.comp_apply]
          split_ifs
          · rw [rowsProd_cons]; simp only [mul_assoc]
          · simp
    rw [e1, ← h1, ← h2, rowsProd_cons]
    simp only [sub_mul, mul_sub, mul_assoc]
    abel

/-! ## The vertices -/

variable [DecidableEq K]

theorem rowsAllV_prod (a : ℕ → ℕ → Matrix n n K) (NI : K) (tbl : List (VDef K)) (H : Matrix n n K) (p : Pt) :
    rowsProd a H (rowsAllV NI tbl (vertAt p)) = atTime H p.2.2 (pairsOp a (tbl.getD p.1 default) p.2.1) := by
  unfold pairsOp rowsAllV rowsProd
  rw [atTime_prod, List.map_map, List.map_map, List.map_map]
  congr 1
  refine List.map_congr_left fun r _ => ?_
  simp only [Function.comp_apply]
  rw [atTime_sub, atTime_mul, atTime_smul, atTime_one]
  unfold pairOp opsOf
  rw [Algebra.algebraMap_eq_smul_one]
  simp [rowOf, flavorOf, fieldOf, termOf, vertAt]

theorem vertices_prod (a : ℕ → ℕ → Matrix n n K) (c : Ctx K) (H : Matrix n n K) (y : List Pt) :
    (y.map (vertexOp a H c.tbl)).prod = (y.map fun p => -(c.tbl.getD p.1 default).U).prod • rowsProd a H (allRows c y) := by
  induction y with
  | nil => simp [rowsProd, allRows]
  | cons p y ih =>
    rw [List.map_cons, List.prod_cons, ih, List.map_cons, List.prod_cons]
    have : allRows c (p :: y) = rowsAllV c.NI c.tbl (vertAt p) ++ allRows c y := rfl
    rw [this, rowsProd_append, rowsAllV_prod]
    unfold vertexOp
    rw [atTime_smul, Matrix.smul_mul, Matrix.mul_smul, smul_smul]

/-- The pair of the inserted creator. -/
def kapRow (z b : ℕ) (t : ℝ) : OpRow K := exRow z b b t 0 0

theorem kapRow_at {z b : ℕ} (hz : z < nf) (hb : b < ns) {t : ℝ} (ht : t ∈ Set.Ico 0 β) : RowAt β nf ns (kapRow z b t : OpRow K) :=
  ⟨hz, rfl, hb, hb, ht, rfl, rfl⟩

section

variable {c : Ctx K} {G : ℝ → ℕ → ℕ → ℕ → K} (hG0 : ThermalG0 β c.nf ns a (bareH c.nf ns h a) c.G0) (hG : ThermalG β c.nf ns a (bareH c.nf ns h a) G)
include hG0 hG

theorem col_eq {z b : ℕ} (hz : z < c.nf) (hb : b < ns) {t : ℝ} (ht : t ∈ Set.Ioo 0 β) {σ : OpRow K} (hσ : RowAt β c.nf ns σ) (hf : σ.cr.flavor = z)
    (hne : σ.cr.time ≠ β - t) : G (σ.an.time + t) z σ.an.site b = - c.G0 σ.an (kapRow z b (β - t) : OpRow K).cr := by
  have ht' : β - t ∈ Set.Ico 0 β := ⟨by linarith [ht.2], by linarith [ht.1]⟩
  have e := green_eq hG0 hG hz hσ.an hb (t := σ.an.time) (t' := β - t) (by rw [hσ.time']; exact hσ.time) ht' (by rw [hσ.time']; exact hne) σ.an.small 0
  have eρ : σ.an = ⟨z, σ.an.site, σ.an.time, σ.an.small⟩ := by rw [← hf, ← hσ.same]
  rw [← eρ] at e
  have e' : c.G0 σ.an (kapRow z b (β - t) : OpRow K).cr = G (σ.an.time - (β - t)) z σ.an.site b := e
  rw [e']
  have htime := hσ.time
  rw [← hσ.time'] at htime hne
  rcases lt_or_gt_of_ne hne with hl | hl
  · have k0 := hG z hz σ.an.site hσ.an b hb (σ.an.time + t) ⟨by linarith [htime.1, ht.1], by linarith⟩ 0
    have k1 := hG z hz σ.an.site hσ.an b hb (σ.an.time + t) ⟨by linarith [htime.1, ht.1], by linarith⟩ (-1)
    rw [show σ.an.time + t + ((0 : ℤ) : ℝ) * β = σ.an.time + t by push_cast; ring] at k0
    rw [show σ.an.time + t + ((-1 : ℤ) : ℝ) * β = σ.an.time - (β - t) by push_cast; ring] at k1
    rw [k0, k1]
    simp
  · have k0 := hG z hz σ.an.site hσ.an b hb (σ.an.time - (β - t)) ⟨by linarith, by linarith [htime.2, ht.2]⟩ 0
    have k1 := hG z hz σ.an.site hσ.an b hb (σ.an.time - (β - t)) ⟨by linarith, by linarith [htime.2, ht.2]⟩ 1
    rw [show σ.an.time - (β - t) + ((0 : ℤ) : ℝ) * β = σ.an.time - (β - t) by push_cast; ring] at k0
    rw [show σ.an.time - (β - t) + ((1 : ℤ) : ℝ) * β = σ.an.time + t by push_cast; ring] at k1
    rw [k0, k1]
    simp

theorem brokenDet_eq {z b : ℕ} (hz : z < c.nf) (hb : b < ns) {t : ℝ} (ht : t ∈ Set.Ioo 0 β) {ρ : OpRow K} (hf : ρ.cr.flavor = z) {M : List (OpRow K)}
    (hM : ∀ σ ∈ ρ :: M, RowAt β c.nf ns σ ∧ σ.cr.time ≠ β - t) :
    brokenDet c G z b t ρ M = - oDet (gRow c.G0) (fun σ => gRow c.G0 σ (kapRow z b (β - t))) ρ M := by
  rw [oDet_blocks c.G0 hz hf rfl fun σ hσ => (hM σ (List.mem_cons_of_mem _ hσ)).1.flavor]
  unfold brokenDet
  have e : ∀ fl ∈ Finset.range c.nf, (if fl = z then
      oDet (fun σ τ => c.G0 σ.an τ.cr) (fun σ => G (σ.an.time + t) z σ.an.site b) ρ (M.filter fun σ => decide (σ.cr.flavor = fl))
      else detN (M.filter fun σ => decide (σ.cr.flavor = fl)).length (rowG c.G0 (M.filter fun σ => decide (σ.cr.flavor = fl)))) =
      (if fl = z then (-1 : K) else 1) * if fl = z then
      oDet (fun σ τ => c.G0 σ.an τ.cr) (fun σ => c.G0 σ.an (kapRow z b (β - t) : OpRow K).cr) ρ (M.filter fun σ => decide (σ.cr.flavor = fl))
      else detN (M.filter fun σ => decide (σ.cr.flavor = fl)).length (rowG c.G0 (M.filter fun σ => decide (σ.cr.flavor = fl))) := by
    intro fl _
    by_cases hfl : fl = z
    · rw [if_pos hfl, if_pos hfl, if_pos hfl, neg_one_mul, ← oDet_neg]
      refine oDet_congr (fun _ _ _ _ => rfl) fun σ hσ => ?_
      rcases List.mem_cons.1 hσ with rfl | hσ
      · exact col_eq hG0 hG hz hb ht (hM _ List.mem_cons_self).1 hf (hM _ List.mem_cons_self).2
      · have := List.mem_filter.1 hσ
        exact col_eq hG0 hG hz hb ht (hM σ (List.mem_cons_of_mem _ this.1)).1 ((of_decide_eq_true this.2).trans hfl) (hM σ (List.mem_cons_of_mem _ this.1)).2
    · rw [if_neg hfl, if_neg hfl, if_neg hfl, one_mul]
  rw [Finset.prod_congr rfl e, Finset.prod_mul_distrib, Finset.prod_ite_eq', if_pos (Finset.mem_range.2 hz), neg_one_mul]

end

/-! ## Products with a stripped vertex and a creator -/

theorem allRows_append (c : Ctx K) (x y : List Pt) : allRows c (x ++ y) = allRows c x ++ allRows c y := List.flatMap_append

theorem allRows_at {c : Ctx K} (hT : TermsOn c.nf ns c.tbl) {y : List Pt} (hy : ValidPts β c.tbl y) {σ : OpRow K} (hσ : σ ∈ allRows c y) :
    RowAt β c.nf ns σ ∧ ∃ q ∈ y, σ.cr.time = q.2.2 := by
  obtain ⟨q, hq, hσ⟩ := List.mem_flatMap.1 hσ
  have := rowsAllV_at hT (hy q hq).1 (hy q hq).2.2 σ hσ
  exact ⟨this.1, q, hq, this.2⟩

theorem allRows_pairwise {c : Ctx K} (hT : TermsOn c.nf ns c.tbl) {y : List Pt} (hy : ValidPts β c.tbl y) (hd : y.Pairwise fun q q' => q'.2.2 < q.2.2) :
    (allRows c y).Pairwise RowLeft := by
  unfold allRows
  rw [List.pairwise_flatMap]
  refine ⟨fun p _ => rowsAllV_left _ _ _, ?_⟩
  refine List.Pairwise.imp_of_mem ?_ hd
  intro p q hp hq hpq ρ hρ σ hσ
  have h1 := (rowsAllV_at hT (hy p hp).1 (hy p hp).2.2 ρ hρ).2
  have h2 := (rowsAllV_at hT (hy q hq).1 (hy q hq).2.2 σ hσ).2
  left
  rw [h1, h2]
  exact hpq

theorem thermal_list_sum {ι : Type} (β : ℝ) (H : Matrix n n K) (l : List ι) (f : ι → Matrix n n K) (X Y : Matrix n n K) :
    thermal β H (X * (l.map f).sum * Y) = (l.map fun i => thermal β H (X * f i * Y)).sum := by
  induction l with
  | nil => simp [thermal]
  | cons i l ih =>
    rw [List.map_cons, List.sum_cons, List.map_cons, List.sum_cons, mul_add, add_mul, thermal_eq, map_add, ← thermal_eq, ← thermal_eq, ih]

section

variable [Nonempty n] {c : Ctx K} (ha : Annihilators c.nf ns a) (hh : HermitianHops c.nf ns h) (hG0 : ThermalG0 β c.nf ns a (bareH c.nf ns h a) c.G0)
  (hT : TermsOn c.nf ns c.tbl) {z A b : ℕ} (hz : z < c.nf) (hb : b < ns) {t : ℝ} (ht : t ∈ Set.Ico 0 β) {p : Pt} {y1 y2 y3 : List Pt}
  (hp : ValidPts β c.tbl [p]) (hy : ValidPts β c.tbl (y1 ++ y2 ++ y3)) (hd : (y1 ++ y2 ++ y3).Pairwise fun q q' => q'.2.2 < q.2.2)
include ha hh hG0 hT hz hb ht hp hy hd

theorem strip_right (h1 : ∀ q ∈ y1, p.2.2 < q.2.2) (h2 : ∀ q ∈ y2, t < q.2.2 ∧ q.2.2 < p.2.2) (h3 : ∀ q ∈ y3, q.2.2 < t) (h4 : t < p.2.2)
    {y : List (OpRow K) × OpRow K × List (OpRow K)} (hs : y ∈ splits (rowsAllV c.NI c.tbl (vertAt p))) :
    thermal β (bareH c.nf ns h a) (rowsProd a (bareH c.nf ns h a) (allRows c y1) * (rowsProd a (bareH c.nf ns h a) y.1 * (opsOf a (bareH c.nf ns h a) y.2.1).2.1 *
      rowsProd a (bareH c.nf ns h a) y.2.2) * (rowsProd a (bareH c.nf ns h a) (allRows c y2) * atTime (bareH c.nf ns h a) t (a z b)ᴴ * rowsProd a (bareH c.nf ns h a) (allRows c y3))) =
    - oDet (gRow c.G0) (fun σ => gRow c.G0 σ (kapRow z b t)) y.2.1 (y.1 ++ y.2.2 ++ allRows c (y1 ++ y2 ++ y3)) := by
  set H := bareH c.nf ns h a with hH
  have hrow := rowsAllV_at (NI := c.NI) hT (hp p (List.mem_singleton.2 rfl)).1 (hp p (List.mem_singleton.2 rfl)).2.2
  have hleft := rowsAllV_left c.NI c.tbl (vertAt p)
  rw [← splits_mem hs] at hrow hleft
  obtain ⟨hl1, hl2, hl3⟩ := List.pairwise_append.1 hleft
  obtain ⟨hl4, hl5⟩ := List.pairwise_cons.1 hl2
  have hρ := hrow y.2.1 (by simp)
  have hs1 : ∀ σ ∈ y.1, RowAt β c.nf ns σ ∧ σ.cr.time = p.2.2 ∧ RowLeft σ y.2.1 := fun σ hσ =>
    ⟨(hrow σ (by simp [hσ])).1, (hrow σ (by simp [hσ])).2, hl3 σ hσ _ List.mem_cons_self⟩
  have hs2 : ∀ σ ∈ y.2.2, RowAt β c.nf ns σ ∧ σ.cr.time = p.2.2 ∧ RowLeft y.2.1 σ := fun σ hσ =>
    ⟨(hrow σ (by simp [hσ])).1, (hrow σ (by simp [hσ])).2, hl4 σ hσ⟩
  have ha1 : ∀ σ ∈ allRows c y1, RowAt β c.nf ns σ ∧ p.2.2 < σ.cr.time := fun σ hσ => by
    obtain ⟨r, q, hq, e⟩ := allRows_at hT (fun q hq => hy q (by simp [hq])) hσ
    exact ⟨r, by rw [e]; exact h1 q hq⟩
  have ha2 : ∀ σ ∈ allRows c y2, RowAt β c.nf ns σ ∧ t < σ.cr.time ∧ σ.cr.time < p.2.2 := fun σ hσ => by
    obtain ⟨r, q, hq, e⟩ := allRows_at hT (fun q hq => hy q (by simp [hq])) hσ
    exact ⟨r, by rw [e]; exact h2 q hq⟩
  have ha3 : ∀ σ ∈ allRows c y3, RowAt β c.nf ns σ ∧ σ.cr.time < t := fun σ hσ => by
    obtain ⟨r, q, hq, e⟩ := allRows_at hT (fun q hq => hy q (by simp [hq])) hσ
    exact ⟨r, by rw [e]; exact h3 q hq⟩
  have hpw := allRows_pairwise hT hy hd
  rw [allRows_append, allRows_append, List.pairwise_append, List.pairwise_append] at hpw
  obtain ⟨⟨hq1, hq2, hq3⟩, hq4, hq5⟩ := hpw
  have key := rows_broken_right ha hh hG0 (ρ := y.2.1) (κ := kapRow z b t) (R1 := allRows c y1 ++ y.1) (R2 := y.2.2 ++ allRows c y2) (R3 := allRows c y3)
    hρ.1 (kapRow_at hz hb ht) ?_ ?_ ?_ ?_ ?_ ?_
  · rw [← hH] at key
    have e1 : (((allRows c y1 ++ y.1).map (opsOf a H)).map pairOp).prod = rowsProd a H (allRows c y1) * rowsProd a H y.1 := rowsProd_append _ _ _ _
    have e2 : (((y.2.2 ++ allRows c y2).map (opsOf a H)).map pairOp).prod = rowsProd a H y.2.2 * rowsProd a H (allRows c y2) := rowsProd_append _ _ _ _
    have e3 : (((allRows c y3).map (opsOf a H)).map pairOp).prod = rowsProd a H (allRows c y3) := rfl
    have e4 : (opsOf a H (kapRow z b t)).1 = atTime H t (a z b)ᴴ := rfl
    rw [e1, e2, e3, e4] at key
    simp only [mul_assoc] at key ⊢
    rw [key]
    congr 1
    refine oDet_perm _ _ _ ?_
    rw [allRows_append, allRows_append]
    simp only [List.append_assoc]
    refine List.Perm.trans List.perm_append_comm ?_
    simp only [List.append_assoc]
    refine List.Perm.append_left _ (List.Perm.append_left _ ?_)
    refine List.Perm.trans (List.Perm.of_eq (List.append_assoc _ _ _).symm) ?_
    exact List.perm_append_comm.trans (List.Perm.refl _)
  · intro σ hσ
    simp only [List.mem_append] at hσ
    rcases hσ with ((q | q) | (q | q)) | q
    · exact (ha1 σ q).1
    · exact (hs1 σ q).1
    · exact (hs2 σ q).1
    · exact (ha2 σ q).1
    · exact (ha3 σ q).1
  · rw [List.pairwise_append, List.pairwise_append, List.pairwise_append, List.pairwise_append]
    refine ⟨⟨⟨hq1, hl1, ?_⟩, ⟨hl5, hq2, ?_⟩, ?_⟩, hq4, ?_⟩
    · intro σ hσ τ hτ
      left
      rw [(hs1 τ hτ).2.1]
      exact (ha1 σ hσ).2
    · intro σ hσ τ hτ
      left
      rw [(hs2 σ hσ).2.1]
      exact (ha2 τ hτ).2.2
    · intro σ hσ τ hτ
      rcases List.mem_append.1 hσ with q | q <;> rcases List.mem_append.1 hτ with r | r
      · left; rw [(hs2 τ r).2.1]; exact (ha1 σ q).2
      · exact hq3 σ q τ r
      · exact hl3 σ q τ (List.mem_cons_of_mem _ r)
      · left; rw [(hs1 σ q).2.1]; exact (ha2 τ r).2.2
    · intro σ hσ τ hτ
      left
      refine (ha3 τ hτ).2.trans ?_
      simp only [List.mem_append] at hσ
      rcases hσ with (q | q) | (q | q)
      · exact h4.trans (ha1 σ q).2
      · rw [(hs1 σ q).2.1]; exact h4
      · rw [(hs2 σ q).2.1]; exact h4
      · exact (ha2 σ q).2.1
  · intro σ hσ
    rcases List.mem_append.1 hσ with q | q
    · exact ⟨.inl (h4.trans (ha1 σ q).2), .inl (by rw [hρ.2]; exact (ha1 σ q).2)⟩
    · exact ⟨.inl (by rw [(hs1 σ q).2.1]; exact h4), (hs1 σ q).2.2⟩
  · intro σ hσ
    rcases List.mem_append.1 hσ with q | q
    · exact ⟨.inl (by rw [(hs2 σ q).2.1]; exact h4), (hs2 σ q).2.2⟩
    · exact ⟨.inl (ha2 σ q).2.1, .inl (by rw [hρ.2]; exact (ha2 σ q).2.2)⟩
  · intro σ hσ
    exact ⟨.inl (ha3 σ hσ).2, .inl (by rw [hρ.2]; exact (ha3 σ hσ).2.trans h4)⟩
  · exact .inl (by rw [hρ.2]; exact h4)

theorem strip_left (h1 : ∀ q ∈ y1, t < q.2.2) (h2 : ∀ q ∈ y2, p.2.2 < q.2.2 ∧ q.2.2 < t) (h3 : ∀ q ∈ y3, q.2.2 < p.2.2) (h4 : p.2.2 < t)
    {y : List (OpRow K) × OpRow K × List (OpRow K)} (hs : y ∈ splits (rowsAllV c.NI c.tbl (vertAt p))) :
    thermal β (bareH c.nf ns h a) (rowsProd a (bareH c.nf ns h a) (allRows c y1) * atTime (bareH c.nf ns h a) t (a z b)ᴴ * rowsProd a (bareH c.nf ns h a) (allRows c y2) *
      (rowsProd a (bareH c.nf ns h a) y.1 * (opsOf a (bareH c.nf ns h a) y.2.1).2.1 * rowsProd a (bareH c.nf ns h a) y.2.2) * rowsProd a (bareH c.nf ns h a) (allRows c y3)) =
    oDet (gRow c.G0) (fun σ => gRow c.G0 σ (kapRow z b t)) y.2.1 (y.1 ++ y.2.2 ++ allRows c (y1 ++ y2 ++ y3)) := by
  set H := bareH c.nf ns h a with hH
  have hrow := rowsAllV_at (NI := c.NI) hT (hp p (List.mem_singleton.2 rfl)).1 (hp p (List.mem_singleton.2 rfl)).2.2
  have hleft := rowsAllV_left c.NI c.tbl (vertAt p)
  rw [← splits_mem hs] at hrow hleft
  obtain ⟨hl1, hl2, hl3⟩ := List.pairwise_append.1 hleft
  obtain ⟨hl4, hl5⟩ := List.pairwise_cons.1 hl2
  have hρ := hrow y.2.1 (by simp)
  have hs1 : ∀ σ ∈ y.1, RowAt β c.nf ns σ ∧ σ.cr.time = p.2.2 ∧ RowLeft σ y.2.1 := fun σ hσ =>
    ⟨(hrow σ (by simp [hσ])).1, (hrow σ (by simp [hσ])).2, hl3 σ hσ _ List.mem_cons_self⟩
  have hs2 : ∀ σ ∈ y.2.2, RowAt β c.nf ns σ ∧ σ.cr.time = p.2.2 ∧ RowLeft y.2.1 σ := fun σ hσ =>
    ⟨(hrow σ (by simp [hσ])).1, (hrow σ (by simp [hσ])).2, hl4 σ hσ⟩
  have ha1 : ∀ σ ∈ allRows c y1, RowAt β c.nf ns σ ∧ t < σ.cr.time := fun σ hσ => by
    obtain ⟨r, q, hq, e⟩ := allRows_at hT (fun q hq => hy q (by simp [hq])) hσ
    exact ⟨r, by rw [e]; exact h1 q hq⟩
  have ha2 : ∀ σ ∈ allRows c y2, RowAt β c.nf ns σ ∧ p.2.2 < σ.cr.time ∧ σ.cr.time < t := fun σ hσ => by
    obtain ⟨r, q, hq, e⟩ := allRows_at hT (fun q hq => hy q (by simp [hq])) hσ
    exact ⟨r, by rw [e]; exact h2 q hq⟩
  have ha3 : ∀ σ ∈ allRows c y3, RowAt β c.nf ns σ ∧ σ.cr.time < p.2.2 := fun σ hσ => by
    obtain ⟨r, q, hq, e⟩ := allRows_at hT (fun q hq => hy q (by simp [hq])) hσ
    exact ⟨r, by rw [e]; exact h3 q hq⟩
  have hpw := allRows_pairwise hT hy hd
  rw [allRows_append, allRows_append, List.pairwise_append, List.pairwise_append] at hpw
  obtain ⟨⟨hq1, hq2, hq3⟩, hq4, hq5⟩ := hpw
  have key := rows_broken_left ha hh hG0 (ρ := y.2.1) (κ := kapRow z b t) (R1 := allRows c y1) (R2 := allRows c y2 ++ y.1) (R3 := y.2.2 ++ allRows c y3)
    hρ.1 (kapRow_at hz hb ht) ?_ ?_ ?_ ?_ ?_ ?_
  · rw [← hH] at key
    have e1 : (((allRows c y2 ++ y.1).map (opsOf a H)).map pairOp).prod = rowsProd a H (allRows c y2) * rowsProd a H y.1 := rowsProd_append _ _ _ _
    have e2 : (((y.2.2 ++ allRows c y3).map (opsOf a H)).map pairOp).prod = rowsProd a H y.2.2 * rowsProd a H (allRows c y3) := rowsProd_append _ _ _ _
    have e3 : (((allRows c y1).map (opsOf a H)).map pairOp).prod = rowsProd a H (allRows c y1) := rfl
    have e4 : (opsOf a H (kapRow z b t)).1 = atTime H t (a z b)ᴴ := rfl
    rw [e1, e2, e3, e4] at key
    simp only [mul_assoc] at key ⊢
    rw [key]
    refine oDet_perm _ _ _ ?_
    rw [allRows_append, allRows_append]
    refine List.Perm.trans (List.Perm.of_eq (show _ = (allRows c y1 ++ allRows c y2) ++ ((y.1 ++ y.2.2) ++ allRows c y3) by simp)) ?_
    refine List.Perm.trans (List.Perm.of_eq (List.append_assoc _ _ _).symm) ?_
    rw [← List.append_assoc (y.1 ++ y.2.2)]
    exact List.Perm.append_right _ List.perm_append_comm
  · intro σ hσ
    simp only [List.mem_append] at hσ
    rcases hσ with (q | (q | q)) | (q | q)
    · exact (ha1 σ q).1
    · exact (ha2 σ q).1
    · exact (hs1 σ q).1
    · exact (hs2 σ q).1
    · exact (ha3 σ q).1
  · rw [List.pairwise_append, List.pairwise_append, List.pairwise_append, List.pairwise_append]
    refine ⟨⟨hq1, ⟨hq2, hl1, ?_⟩, ?_⟩, ⟨hl5, hq4, ?_⟩, ?_⟩
    · intro σ hσ τ hτ
      left
      rw [(hs1 τ hτ).2.1]
      exact (ha2 σ hσ).2.1
    · intro σ hσ τ hτ
      rcases List.mem_append.1 hτ with r | r
      · exact hq3 σ hσ τ r
      · left; rw [(hs1 τ r).2.1]; exact h4.trans (ha1 σ hσ).2
    · intro σ hσ τ hτ
      left
      rw [(hs2 σ hσ).2.1]
      exact (ha3 τ hτ).2
    · intro σ hσ τ hτ
      simp only [List.mem_append] at hσ
      rcases List.mem_append.1 hτ with r | r
      · rcases hσ with q | (q | q)
        · left; rw [(hs2 τ r).2.1]; exact h4.trans (ha1 σ q).2
        · left; rw [(hs2 τ r).2.1]; exact (ha2 σ q).2.1
        · exact hl3 σ q τ (List.mem_cons_of_mem _ r)
      · left
        rcases hσ with q | (q | q)
        · exact (ha3 τ r).2.trans (h4.trans (ha1 σ q).2)
        · exact (ha3 τ r).2.trans (ha2 σ q).2.1
        · rw [(hs1 σ q).2.1]; exact (ha3 τ r).2
  · intro σ hσ
    exact ⟨.inl (ha1 σ hσ).2, .inl (by rw [hρ.2]; exact h4.trans (ha1 σ hσ).2)⟩
  · intro σ hσ
    rcases List.mem_append.1 hσ with q | q
    · exact ⟨.inl (ha2 σ q).2.2, .inl (by rw [hρ.2]; exact (ha2 σ q).2.1)⟩
    · exact ⟨.inl (by rw [(hs1 σ q).2.1]; exact h4), (hs1 σ q).2.2⟩
  · intro σ hσ
    rcases List.mem_append.1 hσ with q | q
    · exact ⟨.inl (by rw [(hs2 σ q).2.1]; exact h4), (hs2 σ q).2.2⟩
    · exact ⟨.inl ((ha3 σ q).2.trans h4), .inl (by rw [hρ.2]; exact (ha3 σ q).2)⟩
  · exact .inl (by rw [hρ.2]; exact h4)

end

/-! ## The value of a picked vertex -/

/-- The weight of the bin. -/
noncomputable def binF (β : ℝ) (m i : ℕ) (v : ℝ) : ℝ := if β * i / m ≤ v ∧ v < β * (i + 1) / m then m / β else 0

theorem foldTime_lt {u : ℝ} (hu : u ∈ Set.Ico 0 β) : ⌊u / β⌋ = 0 ∧ foldTime β u = u := by
  have hβ : 0 < β := hu.1.trans_lt hu.2
  have : ⌊u / β⌋ = 0 := Int.floor_eq_zero_iff.2 ⟨div_nonneg hu.1 hβ.le, (div_lt_one hβ).2 hu.2⟩
  refine ⟨this, ?_⟩
  unfold foldTime
  rw [this]
  simp

theorem foldTime_ge {u : ℝ} (h1 : β ≤ u) (h2 : u < 2 * β) : ⌊u / β⌋ = 1 ∧ foldTime β u = u - β := by
  have hβ : 0 < β := by linarith
  have : ⌊u / β⌋ = 1 := by
    rw [Int.floor_eq_iff]
    push_cast
    exact ⟨(one_le_div hβ).2 h1, (div_lt_iff₀ hβ).2 (by linarith)⟩
  refine ⟨this, ?_⟩
  unfold foldTime
  rw [this]
  simp

theorem binSign_lt {m i : ℕ} {u : ℝ} (hu : u ∈ Set.Ico 0 β) : binSign β m i u = binF β m i (foldTime β u) := by
  unfold binSign binF
  rw [(foldTime_lt hu).1]
  simp

theorem binSign_ge {m i : ℕ} {u : ℝ} (h1 : β ≤ u) (h2 : u < 2 * β) : binSign β m i u = - binF β m i (foldTime β u) := by
  unfold binSign binF
  rw [(foldTime_ge h1 h2).1]
  by_cases q : β * i / m ≤ foldTime β u ∧ foldTime β u < β * (i + 1) / m
  · rw [if_pos q]; simp
  · rw [if_neg q]; simp

/-- The factor of a stripped vertex. -/
noncomputable def sCoef (c : Ctx K) (β : ℝ) (m i : ℕ) (p : Pt) (t : ℝ) : K :=
  (c.tbl.getD p.1 default).U * ((numStates c.tbl p.1 : ℕ) : K)⁻¹ * ((binF β m i (foldTime β (p.2.2 + t)) : ℝ) : K)

/-- The commutator of an annihilator with the pairs of a vertex. -/
def commOp (a : ℕ → ℕ → Matrix n n K) (c : Ctx K) (z A : ℕ) (p : Pt) : Matrix n n K :=
  a z A * pairsOp a (c.tbl.getD p.1 default) p.2.1 - pairsOp a (c.tbl.getD p.1 default) p.2.1 * a z A

/-- The stripped vertex and the creator, the later first. -/
noncomputable def sigOps (a : ℕ → ℕ → Matrix n n K) (c : Ctx K) (β : ℝ) (m i z A b : ℕ) (p : Pt) (t : ℝ) : List (ℝ × Matrix n n K) :=
  if β - t < p.2.2 then [(p.2.2, sCoef c β m i p t • commOp a c z A p), (β - t, (a z b)ᴴ)]
  else [(β - t, (a z b)ᴴ), (p.2.2, sCoef c β m i p t • commOp a c z A p)]

theorem uWeight_list (c : Ctx K) (y : List Pt) : uWeight c.tbl (y.map vertAt) = (y.map fun p => -(c.tbl.getD p.1 default).U).prod := by
  unfold uWeight
  rw [interacting_vertAt, List.map_map]
  rfl

theorem thermal_zero (H : Matrix n n K) : thermal β H 0 = 0 := by
  unfold thermal
  simp

theorem map_inl_split {γ δ : Type} {y : List γ} {l1 l2 : List (γ ⊕ δ)} (h : y.map Sum.inl = l1 ++ l2) :
    ∃ y1 y2, y = y1 ++ y2 ∧ y1.map Sum.inl = l1 ∧ y2.map Sum.inl = l2 := List.map_eq_append_iff.1 h

section

variable [Nonempty n] {c : Ctx K} {G : ℝ → ℕ → ℕ → ℕ → K} (ha : Annihilators c.nf ns a) (hh : HermitianHops c.nf ns h)
  (hG0 : ThermalG0 β c.nf ns a (bareH c.nf ns h a) c.G0) (hG : ThermalG β c.nf ns a (bareH c.nf ns h a) G)
  (hT : TermsOn c.nf ns c.tbl) {z A b m i : ℕ} (hz : z < c.nf) (hA : A < ns) (hb : b < ns) {t : ℝ} (ht : t ∈ Set.Ioo 0 β) {p : Pt} {x : List Pt}
  (hp : ValidPts β c.tbl [p]) (hx : ValidPts β c.tbl x)
include ha hh hG0 hG hT hz hA hb ht hp hx

theorem pick_value (hne : p.2.2 ≠ β - t) {w : List (ℝ × Matrix n n K)}
    (hw : w.Perm (x.map (timed (vertexOp a (bareH c.nf ns h a) c.tbl)) ++ (sigOps a c β m i z A b p t).map fun o => (o.1, atTime (bareH c.nf ns h a) o.1 o.2)))
    (hd : w.Pairwise fun o o' => o'.1 < o.1) :
    ((numStates c.tbl p.1 : ℕ) : K)⁻¹ * pickTerm c β m i G z A b t p x = thermal β (bareH c.nf ns h a) (w.map Prod.snd).prod := by
  set H := bareH c.nf ns h a with hH
  have hτ := (hp p (List.mem_singleton.2 rfl)).2.2
  have ht' : β - t ∈ Set.Ico 0 β := ⟨by linarith [ht.2], by linarith [ht.1]⟩
  set S : Matrix n n K := atTime H p.2.2 (sCoef c β m i p t • commOp a c z A p) with hS
  set B : Matrix n n K := atTime H (β - t) (a z b)ᴴ with hB
  have hSs : S = sCoef c β m i p t • strip a H z A (rowsAllV c.NI c.tbl (vertAt p)) := by
    rw [hS, atTime_smul, ← strip_comm ha H hz hA (rowsAllV_at hT (hp p (List.mem_singleton.2 rfl)).1 hτ), rowsAllV_prod]
    unfold commOp
    rw [atTime_sub, atTime_mul, atTime_mul]
  have hUx : uWeight c.tbl ((p :: x).map vertAt) = -(c.tbl.getD p.1 default).U * uWeight c.tbl (x.map vertAt) := by
    rw [uWeight_list, uWeight_list, List.map_cons, List.prod_cons]
  -- the contribution of one pair
  have hpair : ∀ y ∈ splits (rowsAllV c.NI c.tbl (vertAt p)), ∀ x' : List Pt, x'.Perm x → (∀ q ∈ x, q.2.2 ≠ β - t) → y.2.1.cr.flavor = z →
      brokenDet c G z b t y.2.1 (y.1 ++ y.2.2 ++ allRows c x) =
        - oDet (gRow c.G0) (fun σ => gRow c.G0 σ (kapRow z b (β - t))) y.2.1 (y.1 ++ y.2.2 ++ allRows c x') := by
    intro y hy x' hx' hnx hf
    rw [brokenDet_perm c G z b t y.2.1 (M' := y.1 ++ y.2.2 ++ allRows c x') (show (y.1 ++ y.2.2 ++ allRows c x).Perm _ from (hx'.symm.flatMap_right _).append_left _)]
    refine brokenDet_eq hG0 hG hz hb ht hf fun σ hσ => ?_
    have hrow := rowsAllV_at (NI := c.NI) hT (hp p (List.mem_singleton.2 rfl)).1 hτ
    rw [← splits_mem hy] at hrow
    simp only [List.mem_cons, List.mem_append] at hσ
    rcases hσ with rfl | (q | q) | q
    · exact ⟨(hrow _ (by simp)).1, by rw [(hrow _ (by simp)).2]; exact hne⟩
    · exact ⟨(hrow _ (by simp [q])).1, by rw [(hrow _ (by simp [q])).2]; exact hne⟩
    · exact ⟨(hrow _ (by simp [q])).1, by rw [(hrow _ (by simp [q])).2]; exact hne⟩
    · obtain ⟨r, q', hq', e⟩ := allRows_at hT (fun q hq => hx q (hx'.mem_iff.1 hq)) q
      exact ⟨r, by rw [e]; exact hnx q' (hx'.mem_iff.1 hq')⟩
  have htime : ∀ y ∈ splits (rowsAllV c.NI c.tbl (vertAt p)), y.2.1.cr.time = p.2.2 := by
    intro y hy
    have hrow := rowsAllV_at (NI := c.NI) hT (hp p (List.mem_singleton.2 rfl)).1 hτ
    rw [← splits_mem hy] at hrow
    exact (hrow _ (by simp)).2
  -- order the factors
  set F : Pt ⊕ Bool → ℝ × Matrix n n K := fun e => match e with
    | .inl q => timed (vertexOp a H c.tbl) q
    | .inr true => (p.2.2, S)
    | .inr false => (β - t, B) with hF
  have hw' : w.Perm ((x.map Sum.inl ++ [Sum.inr true, Sum.inr false]).map F) := by
    refine hw.trans ?_
    rw [List.map_append, List.map_map]
    refine List.Perm.append_left _ ?_
    unfold sigOps
    split_ifs
    · exact List.Perm.refl _
    · exact List.Perm.swap _ _ _
  obtain ⟨L, hL1, hL2⟩ := perm_map_lift hw'
  rw [← hL2] at hd ⊢
  rw [List.pairwise_map] at hd
  have hnx : ∀ q ∈ x, q.2.2 ≠ β - t := by
    have h1 : L.Pairwise fun e e' => (F e).1 ≠ (F e').1 := hd.imp fun q => q.ne'
    have h2 := (hL1.pairwise_iff (fun {e e'} (q : (F e).1 ≠ (F e').1) => Ne.symm q)).1 h1
    rw [List.pairwise_append] at h2
    intro q hq
    exact h2.2.2 (Sum.inl q) (List.mem_map_of_mem hq) (Sum.inr false) (by simp)
  have hmt : Sum.inr true ∈ L := hL1.mem_iff.2 (by simp)
  obtain ⟨A1, A2, rfl⟩ := List.append_of_mem hmt
  have hL3 : (A1 ++ A2).Perm (x.map Sum.inl ++ [Sum.inr false]) := by
    have := (List.perm_middle (a := Sum.inr true) (l₁ := A1) (l₂ := A2)).symm.trans hL1
    have h2 : (x.map Sum.inl ++ [Sum.inr true, Sum.inr false]).Perm (Sum.inr true :: (x.map Sum.inl ++ [Sum.inr false])) := List.perm_middle
    exact (this.trans h2).cons_inv
  have hmf : Sum.inr false ∈ A1 ++ A2 := hL3.mem_iff.2 (by simp)
  have hFt : (F (Sum.inr true)).2 = S := rfl
  have hFf : (F (Sum.inr false)).2 = B := rfl
  have hprod : ∀ y : List Pt, ((y.map Sum.inl).map F).map Prod.snd = y.map (vertexOp a H c.tbl) := by
    intro y
    rw [List.map_map, List.map_map]
    rfl
  rcases List.mem_append.1 hmf with hmf | hmf
  · -- the creator stands left
    obtain ⟨B1, B2, rfl⟩ := List.append_of_mem hmf
    have hL4 : (B1 ++ B2 ++ A2).Perm (x.map Sum.inl) := by
      have h1 : (B1 ++ Sum.inr false :: B2 ++ A2).Perm (Sum.inr false :: (B1 ++ B2 ++ A2)) := by
        rw [List.append_assoc, List.cons_append, List.append_assoc]
        exact List.perm_middle
      have h2 : (x.map Sum.inl ++ [Sum.inr false]).Perm (Sum.inr false :: x.map Sum.inl) := List.perm_append_singleton _ _
      exact ((h1.symm.trans hL3).trans h2).cons_inv
    obtain ⟨y, hy1, hy2⟩ := perm_map_lift hL4
    obtain ⟨y12, y3, rfl, hy3, rfl⟩ := map_inl_split hy2
    obtain ⟨y1, y2, rfl, rfl, rfl⟩ := map_inl_split hy3
    have hval : ValidPts β c.tbl (y1 ++ y2 ++ y3) := fun q hq => hx q (hy1.mem_iff.1 hq)
    simp only [List.append_assoc, List.cons_append, List.pairwise_append, List.pairwise_cons, List.mem_append, List.mem_cons, List.mem_map] at hd
    have d1 : ∀ q ∈ y1, β - t < q.2.2 := fun q hq => hd.2.2 (Sum.inl q) ⟨q, hq, rfl⟩ (Sum.inr false) (by simp)
    have d2 : ∀ q ∈ y2, p.2.2 < q.2.2 ∧ q.2.2 < β - t := fun q hq =>
      ⟨hd.2.1.2.2.2 (Sum.inl q) ⟨q, hq, rfl⟩ (Sum.inr true) (by simp), hd.2.1.1 (Sum.inl q) (by simp [hq])⟩
    have d3 : ∀ q ∈ y3, q.2.2 < p.2.2 := fun q hq => hd.2.1.2.2.1.1 (Sum.inl q) ⟨q, hq, rfl⟩
    have d4 : p.2.2 < β - t := hd.2.1.1 (Sum.inr true) (by simp)
    have d5 : (y1 ++ y2 ++ y3).Pairwise fun q q' => q'.2.2 < q.2.2 := by
      rw [List.append_assoc, List.pairwise_append, List.pairwise_append]
      refine ⟨?_, ⟨?_, ?_, ?_⟩, ?_⟩
      · exact (List.pairwise_map.1 hd.1)
      · exact (List.pairwise_map.1 hd.2.1.2.1)
      · exact (List.pairwise_map.1 hd.2.1.2.2.1.2)
      · exact fun q hq q' hq' => hd.2.1.2.2.2 (Sum.inl q) ⟨q, hq, rfl⟩ (Sum.inl q') (by simp [hq'])
      · exact fun q hq q' hq' => hd.2.2 (Sum.inl q) ⟨q, hq, rfl⟩ (Sum.inl q') (by
          rcases List.mem_append.1 hq' with r | r
          · simp [r]
          · simp [r])
    have hprod' : (((y1.map Sum.inl ++ Sum.inr false :: y2.map Sum.inl ++ Sum.inr true :: y3.map Sum.inl).map F).map Prod.snd).prod =
        (y1.map (vertexOp a H c.tbl)).prod * B * (y2.map (vertexOp a H c.tbl)).prod * S * (y3.map (vertexOp a H c.tbl)).prod := by
      simp only [List.map_append, List.map_cons, List.prod_append, List.prod_cons, hprod, hFt, hFf]
      simp only [mul_assoc]
    rw [hprod', vertices_prod, vertices_prod, vertices_prod, hSs]
    simp only [Matrix.smul_mul, Matrix.mul_smul, smul_smul, thermal_smul]
    unfold strip
    rw [thermal_list_sum]
    unfold pickTerm
    rw [hUx, uWeight_perm c hy1.symm, uWeight_list, List.map_append, List.map_append, List.prod_append, List.prod_append]
    have e : ((splits (rowsAllV c.NI c.tbl (vertAt p))).map fun y => sigTerm c β m i G z A b t y.2.1 (y.1 ++ y.2.2 ++ allRows c x)) =
        (splits (rowsAllV c.NI c.tbl (vertAt p))).map fun y => (thermal β H (rowsProd a H (allRows c y1) * B * rowsProd a H (allRows c y2) *
          (if y.2.1.cr.flavor = z ∧ y.2.1.cr.site = A then rowsProd a H y.1 * (opsOf a H y.2.1).2.1 * rowsProd a H y.2.2 else 0) * rowsProd a H (allRows c y3))) *
          (- ((binF β m i (foldTime β (p.2.2 + t)) : ℝ) : K)) := by
      refine List.map_congr_left fun y hy => ?_
      unfold sigTerm
      split_ifs with hc
      · rw [hpair y hy _ hy1 hnx hc.1, htime y hy, binSign_lt ⟨by linarith [hτ.1, ht.1], by linarith⟩,
          strip_left ha hh hG0 hT hz hb ht' hp hval d5 d1 d2 d3 d4 hy]
        ring
      · simp [thermal_zero]
    rw [e, list_sum_mul]
    unfold sCoef
    ring
  · obtain ⟨B1, B2, rfl⟩ := List.append_of_mem hmf
    have hL4 : (A1 ++ B1 ++ B2).Perm (x.map Sum.inl) := by
      have h1 : (A1 ++ (B1 ++ Sum.inr false :: B2)).Perm (Sum.inr false :: (A1 ++ B1 ++ B2)) := by
        rw [← List.append_assoc]
        exact List.perm_middle
      have h2 : (x.map Sum.inl ++ [Sum.inr false]).Perm (Sum.inr false :: x.map Sum.inl) := List.perm_append_singleton _ _
      exact ((h1.symm.trans hL3).trans h2).cons_inv
    obtain ⟨y, hy1, hy2⟩ := perm_map_lift hL4
    obtain ⟨y12, y3, rfl, hy3, rfl⟩ := map_inl_split hy2
    obtain ⟨y1, y2, rfl, rfl, rfl⟩ := map_inl_split hy3
    have hval : ValidPts β c.tbl (y1 ++ y2 ++ y3) := fun q hq => hx q (hy1.mem_iff.1 hq)
    simp only [List.pairwise_append, List.pairwise_cons, List.mem_append, List.mem_cons, List.mem_map] at hd
    have d1 : ∀ q ∈ y1, p.2.2 < q.2.2 := fun q hq => hd.2.2 (Sum.inl q) ⟨q, hq, rfl⟩ (Sum.inr true) (by simp)
    have d2 : ∀ q ∈ y2, β - t < q.2.2 ∧ q.2.2 < p.2.2 := fun q hq =>
      ⟨hd.2.1.2.2.2 (Sum.inl q) ⟨q, hq, rfl⟩ (Sum.inr false) (by simp), hd.2.1.1 (Sum.inl q) (by simp [hq])⟩
    have d3 : ∀ q ∈ y3, q.2.2 < β - t := fun q hq => hd.2.1.2.2.1.1 (Sum.inl q) ⟨q, hq, rfl⟩
    have d4 : β - t < p.2.2 := hd.2.1.1 (Sum.inr false) (by simp)
    have d5 : (y1 ++ y2 ++ y3).Pairwise fun q q' => q'.2.2 < q.2.2 := by
      rw [List.append_assoc, List.pairwise_append, List.pairwise_append]
      refine ⟨?_, ⟨?_, ?_, ?_⟩, ?_⟩
      · exact (List.pairwise_map.1 hd.1)
      · exact (List.pairwise_map.1 hd.2.1.2.1)
      · exact (List.pairwise_map.1 hd.2.1.2.2.1.2)
      · exact fun q hq q' hq' => hd.2.1.2.2.2 (Sum.inl q) ⟨q, hq, rfl⟩ (Sum.inl q') (by simp [hq'])
      · exact fun q hq q' hq' => hd.2.2 (Sum.inl q) ⟨q, hq, rfl⟩ (Sum.inl q') (by
          rcases List.mem_append.1 hq' with r | r
          · simp [r]
          · simp [r])
    have hprod' : (((y1.map Sum.inl ++ Sum.inr true :: (y2.map Sum.inl ++ Sum.inr false :: y3.map Sum.inl)).map F).map Prod.snd).prod =
        (y1.map (vertexOp a H c.tbl)).prod * S * ((y2.map (vertexOp a H c.tbl)).prod * B * (y3.map (vertexOp a H c.tbl)).prod) := by
      simp only [List.map_append, List.map_cons, List.prod_append, List.prod_cons, hprod, hFt, hFf]
      simp only [mul_assoc]
    rw [hprod', vertices_prod, vertices_prod, vertices_prod, hSs]
    simp only [Matrix.smul_mul, Matrix.mul_smul, smul_smul, thermal_smul]
    unfold strip
    rw [thermal_list_sum]
    unfold pickTerm
    rw [hUx, uWeight_perm c hy1.symm, uWeight_list, List.map_append, List.map_append, List.prod_append, List.prod_append]
    have e : ((splits (rowsAllV c.NI c.tbl (vertAt p))).map fun y => sigTerm c β m i G z A b t y.2.1 (y.1 ++ y.2.2 ++ allRows c x)) =
        (splits (rowsAllV c.NI c.tbl (vertAt p))).map fun y => (thermal β H (rowsProd a H (allRows c y1) *
          (if y.2.1.cr.flavor = z ∧ y.2.1.cr.site = A then rowsProd a H y.1 * (opsOf a H y.2.1).2.1 * rowsProd a H y.2.2 else 0) *
          (rowsProd a H (allRows c y2) * B * rowsProd a H (allRows c y3)))) *
          (- ((binF β m i (foldTime β (p.2.2 + t)) : ℝ) : K)) := by
      refine List.map_congr_left fun y hy => ?_
      unfold sigTerm
      split_ifs with hc
      · rw [hpair y hy _ hy1 hnx hc.1, htime y hy, binSign_ge (by linarith) (by linarith [hτ.2, ht.2]),
          strip_right ha hh hG0 hT hz hb ht' hp hval d5 d1 d2 d3 d4 hy]
        push_cast
        ring
      · simp [thermal_zero]
    rw [e, list_sum_mul]
    unfold sCoef
    ring

end

end CTInt
