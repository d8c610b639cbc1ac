import Verif.Proofs.FockSigma

/-!
# The weights of the self-energy are measurable
-/

set_option linter.all false

namespace CTInt

open NormedSpace Matrix ComplexOrder MeasureTheory Filter

variable {K : Type} [RCLike K] [DecidableEq K] {Z : Type} [MeasurableSpace Z]

/-- An operator pair whose time depends on a parameter. -/
structure RowD (K Z : Type) where
  f : ℕ
  s1 : ℕ
  s2 : ℕ
  e : ℤ
  al : K
  ti : Z → ℝ
  id : ℕ × ℕ × ℕ

/-- The pair at a value of the parameter. -/
def RowD.at (d : RowD K Z) (z : Z) : OpRow K := ⟨⟨d.f, d.s1, d.ti z, d.e⟩, ⟨d.f, d.s2, d.ti z, d.e⟩, d.al, ⟨d.id.1, d.id.2.1, d.id.2.2⟩⟩

theorem rowD_getD (l : List (RowD K Z)) {i : ℕ} (hi : i < l.length) (z : Z) : (l.map fun d => d.at z).getD i default = (l[i]).at z := by
  rw [List.getD_eq_getElem _ _ (by rwa [List.length_map]), List.getElem_map]

theorem rowD_filter (l : List (RowD K Z)) (fl : ℕ) (z : Z) :
    (l.map fun d => d.at z).filter (fun σ => decide (σ.cr.flavor = fl)) = (l.filter fun d => decide (d.f = fl)).map fun d => d.at z := by
  rw [List.filter_map]
  rfl

theorem measurable_rowD_G0 {G0 : Op → Op → K} (hm : MeasurableG0 G0) {d d' : RowD K Z} (h : Measurable d.ti) (h' : Measurable d'.ti) :
    Measurable fun z => G0 (d.at z).an (d'.at z).cr := (hm d.f d.s2 d.e d'.f d'.s1 d'.e).comp (h.prodMk h')

theorem measurable_rowD_det {G0 : Op → Op → K} (hm : MeasurableG0 G0) {l : List (RowD K Z)} (h : ∀ d ∈ l, Measurable d.ti) :
    Measurable fun z => detN (l.map fun d => d.at z).length (rowG G0 (l.map fun d => d.at z)) := by
  simp only [List.length_map]
  refine measurable_detN fun i hi j hj => ?_
  unfold rowG specG
  simp only [rowD_getD l hi, rowD_getD l hj]
  refine Measurable.sub (measurable_rowD_G0 hm (h _ (List.getElem_mem _)) (h _ (List.getElem_mem _))) ?_
  split <;> exact measurable_const

theorem measurable_rowD_oDet {G0 : Op → Op → K} (hm : MeasurableG0 G0) {G : ℝ → ℕ → ℕ → ℕ → K} (hGm : MeasurableG G) {l : List (RowD K Z)} (h : ∀ d ∈ l, Measurable d.ti)
    {ρ : RowD K Z} (hρ : Measurable ρ.ti) {t : Z → ℝ} (ht : Measurable t) (fl b : ℕ) :
    Measurable fun z => oDet (fun σ τ => G0 σ.an τ.cr) (fun σ => G (σ.an.time + t z) fl σ.an.site b) (ρ.at z) (l.map fun d => d.at z) := by
  have hcol : ∀ d : RowD K Z, Measurable d.ti → Measurable fun z => G ((d.at z).an.time + t z) fl (d.at z).an.site b :=
    fun d hd => (hGm fl d.s2 b).comp (hd.add ht)
  unfold oDet
  simp only [List.length_cons, List.length_map]
  refine measurable_detN fun i hi j hj => ?_
  unfold kernelG
  refine Measurable.add ?_ ?_
  · split
    · rcases j with _ | j
      · simp only [List.getD_cons_zero, oD]
        exact measurable_const
      · have hj' : j < l.length := by omega
        simp only [List.getD_cons_succ]
        have : ∀ z, ((l.map fun d => d.at z).map some).getD j default = some ((l[j]).at z) := fun z => by
          rw [getD_some' (by rwa [List.length_map]), rowD_getD l hj']
        simp only [this, oD]
        show Measurable fun _ : Z => -(l[j]).al
        exact measurable_const
    · exact measurable_const
  · have hs : ∀ j (hj : j < l.length) z, ((l.map fun d => d.at z).map some).getD j default = some ((l[j]).at z) := fun j hj z => by
      rw [getD_some' (by rwa [List.length_map]), rowD_getD l hj]
    rcases i with _ | i <;> rcases j with _ | j
    · simp only [List.getD_cons_zero, oKer]
      exact hcol _ hρ
    · have hj' : j < l.length := by omega
      simp only [List.getD_cons_zero, List.getD_cons_succ, hs j hj', oKer]
      exact measurable_rowD_G0 hm hρ (h _ (List.getElem_mem _))
    · have hi' : i < l.length := by omega
      simp only [List.getD_cons_zero, List.getD_cons_succ, hs i hi', oKer]
      exact hcol _ (h _ (List.getElem_mem _))
    · have hi' : i < l.length := by omega
      have hj' : j < l.length := by omega
      simp only [List.getD_cons_succ, hs i hi', hs j hj', oKer]
      exact measurable_rowD_G0 hm (h _ (List.getElem_mem _)) (h _ (List.getElem_mem _))

variable {c : Ctx K} {G : ℝ → ℕ → ℕ → ℕ → K} {β : ℝ}

theorem measurable_rowD_broken (hm : MeasurableG0 c.G0) (hGm : MeasurableG G) {l : List (RowD K Z)} (h : ∀ d ∈ l, Measurable d.ti)
    {ρ : RowD K Z} (hρ : Measurable ρ.ti) {t : Z → ℝ} (ht : Measurable t) (fl b : ℕ) :
    Measurable fun z => brokenDet c G fl b (t z) (ρ.at z) (l.map fun d => d.at z) := by
  unfold brokenDet
  simp only [rowD_filter]
  refine Finset.measurable_prod _ fun f _ => ?_
  have hf : ∀ d ∈ l.filter (fun d => decide (d.f = f)), Measurable d.ti := fun d hd => h d (List.mem_filter.1 hd).1
  split
  · exact measurable_rowD_oDet hm hGm hf hρ ht _ _
  · exact measurable_rowD_det hm hf

theorem measurable_binSign (n i : ℕ) : Measurable (binSign β n i) := by
  have hfl : Measurable fun u : ℝ => ⌊u / β⌋ := Int.measurable_floor.comp (measurable_id.div_const β)
  have hft : Measurable fun u : ℝ => foldTime β u := by
    unfold foldTime
    have : Measurable fun k : ℤ => (k : ℝ) := measurable_from_top
    exact measurable_id.sub ((this.comp hfl).mul_const β)
  unfold binSign
  exact (measurable_zpow_neg_one.comp hfl).mul
    (Measurable.ite ((measurableSet_le measurable_const hft).inter (measurableSet_lt hft measurable_const)) measurable_const measurable_const)

theorem measurable_rowD_sig (hm : MeasurableG0 c.G0) (hGm : MeasurableG G) {l : List (RowD K Z)} (h : ∀ d ∈ l, Measurable d.ti)
    {ρ : RowD K Z} (hρ : Measurable ρ.ti) {t : Z → ℝ} (ht : Measurable t) (n i fl A b : ℕ) :
    Measurable fun z => sigTerm c β n i G fl A b (t z) (ρ.at z) (l.map fun d => d.at z) := by
  unfold sigTerm
  by_cases q : ρ.f = fl ∧ ρ.s1 = A
  · have : ∀ z, (ρ.at z).cr.flavor = fl ∧ (ρ.at z).cr.site = A := fun _ => q
    simp only [this, and_self, if_true]
    exact (RCLike.measurable_ofReal.comp ((measurable_binSign n i).comp (hρ.add ht))).mul (measurable_rowD_broken hm hGm h hρ ht fl b)
  · have : ∀ z, ¬((ρ.at z).cr.flavor = fl ∧ (ρ.at z).cr.site = A) := fun _ => q
    simp only [this, if_false]
    exact measurable_const

theorem splits_map {α γ : Type} (g : α → γ) (l : List α) : splits (l.map g) = (splits l).map fun y => (y.1.map g, g y.2.1, y.2.2.map g) := by
  induction l with
  | nil => rfl
  | cons a l ih => rw [List.map_cons, splits, ih, splits]; simp [Function.comp_def]

/-- The pairs of a vertex. -/
def rowsD (c : Ctx K) (p : ℕ × ℕ × (Z → ℝ)) : List (RowD K Z) := (List.range (termOf c.tbl (vertAt (p.1, p.2.1, 0))).rank).map fun r =>
  ⟨flavorOf c.tbl (vertAt (p.1, p.2.1, 0)) r, (termOf c.tbl (vertAt (p.1, p.2.1, 0))).sites.getD (2 * r) 0,
    (termOf c.tbl (vertAt (p.1, p.2.1, 0))).sites.getD (2 * r + 1) 0, -(r : ℤ), fieldOf c.NI c.tbl (vertAt (p.1, p.2.1, 0)) r, p.2.2, (p.1, r, 0)⟩

/-- The vertex at a value of the parameter. -/
def ptD (p : ℕ × ℕ × (Z → ℝ)) (z : Z) : Pt := (p.1, p.2.1, p.2.2 z)

theorem rowsD_at (c : Ctx K) (p : ℕ × ℕ × (Z → ℝ)) (z : Z) : rowsAllV c.NI c.tbl (vertAt (ptD p z)) = (rowsD c p).map fun d => d.at z := by
  unfold rowsAllV rowsD
  rw [List.map_map]
  rfl

theorem rowsD_ti {p : ℕ × ℕ × (Z → ℝ)} {d : RowD K Z} (h : d ∈ rowsD c p) : d.ti = p.2.2 := by
  obtain ⟨r, -, rfl⟩ := List.mem_map.1 h
  rfl

theorem allRowsD (c : Ctx K) (x : List (ℕ × ℕ × (Z → ℝ))) (z : Z) : allRows c (x.map fun p => ptD p z) = (x.flatMap (rowsD c)).map fun d => d.at z := by
  unfold allRows
  rw [List.flatMap_map, List.map_flatMap]
  congr 1
  funext p
  exact rowsD_at c p z

theorem measurable_list_sum {α : Type} (l : List α) (f : α → Z → K) (h : ∀ a ∈ l, Measurable (f a)) : Measurable fun z => (l.map fun a => f a z).sum := by
  induction l with
  | nil => exact measurable_const
  | cons a l ih =>
    simp only [List.map_cons, List.sum_cons]
    exact (h a List.mem_cons_self).add (ih fun b hb => h b (List.mem_cons_of_mem _ hb))

theorem measurable_pickD (hm : MeasurableG0 c.G0) (hGm : MeasurableG G) {p : ℕ × ℕ × (Z → ℝ)} (hp : Measurable p.2.2) {x : List (ℕ × ℕ × (Z → ℝ))}
    (hx : ∀ q ∈ x, Measurable q.2.2) {t : Z → ℝ} (ht : Measurable t) (n i fl A b : ℕ) :
    Measurable fun z => pickTerm c β n i G fl A b (t z) (ptD p z) (x.map fun q => ptD q z) := by
  unfold pickTerm
  refine Measurable.mul ?_ ?_
  · simp only [rowsD_at, allRowsD, splits_map, List.map_map, Function.comp_def]
    refine measurable_list_sum _ _ fun y hy => ?_
    have hy' := splits_mem hy
    have h1 : ∀ d ∈ rowsD c p, Measurable d.ti := fun d hd => by rw [rowsD_ti hd]; exact hp
    have h2 : ∀ d ∈ x.flatMap (rowsD c), Measurable d.ti := fun d hd => by
      obtain ⟨q, hq, hd⟩ := List.mem_flatMap.1 hd
      rw [rowsD_ti hd]
      exact hx q hq
    rw [← hy'] at h1
    simp only [← List.map_append]
    refine measurable_rowD_sig hm hGm (fun d hd => ?_) (h1 _ (by simp)) ht n i fl A b
    rcases List.mem_append.1 hd with hd | hd
    · exact h1 d (by rcases List.mem_append.1 hd with q | q <;> simp [q])
    · exact h2 d hd
  · have : ∀ z, uWeight c.tbl ((ptD p z :: x.map fun q => ptD q z).map vertAt) = -(c.tbl.getD p.1 default).U * (x.map fun q => -(c.tbl.getD q.1 default).U).prod := by
      intro z
      rw [uWeight_list, List.map_cons, List.prod_cons, List.map_map]
      rfl
    simp only [this]
    exact measurable_const

attribute [local irreducible] pickTerm

theorem measurable_pickTerm (hm : MeasurableG0 c.G0) (hGm : MeasurableG G) (n i fl A b : ℕ) :
    Measurable fun z : List Pt × (Pt × ℝ) => pickTerm c β n i G fl A b z.2.2 z.2.1 z.1 := by
  refine measurable_of_length fun N => measurable_of_tags_prod fun k => ?_
  have key : Measurable fun w : (((Fin N → ℝ) × ℝ) × ℝ) × (ℕ × ℕ) => pickTerm c β n i G fl A b w.1.2 (w.2.1, w.2.2, w.1.1.2) (List.ofFn (untag k w.1.1.1)) := by
    refine measurable_from_prod_countable_left fun g => ?_
    have := measurable_pickD (c := c) (G := G) (β := β) (Z := ((Fin N → ℝ) × ℝ) × ℝ) hm hGm (p := (g.1, g.2, fun z => z.1.2)) (measurable_snd.comp measurable_fst)
      (x := (List.finRange N).map fun j => ((k j).1, (k j).2, fun z => z.1.1 j)) (by
        intro q hq
        obtain ⟨j, -, rfl⟩ := List.mem_map.1 hq
        exact (measurable_pi_apply j).comp (measurable_fst.comp measurable_fst)) (t := fun z => z.2) measurable_snd n i fl A b
    have e : ∀ z : ((Fin N → ℝ) × ℝ) × ℝ, (((List.finRange N).map fun j => (((k j).1, (k j).2, fun z : ((Fin N → ℝ) × ℝ) × ℝ => z.1.1 j) : ℕ × ℕ × _)).map fun q => ptD q z) =
        List.ofFn (untag k z.1.1) := by
      intro z
      rw [List.map_map, List.ofFn_eq_map]
      rfl
    simp only [e] at this
    exact this
  have hrearr : Measurable fun w : (Fin N → ℝ) × (Pt × ℝ) => (((w.1, w.2.1.2.2), w.2.2), (w.2.1.1, w.2.1.2.1)) := by
    fun_prop
  exact key.comp hrearr

end CTInt
