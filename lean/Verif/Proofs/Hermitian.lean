import Verif.Spec.Hermitian
import Verif.Spec.SelfComplex
import Verif.Proofs.Points
import Verif.Proofs.Always
import Verif.Proofs.SimRun

/-!
# Conjugate weights
-/

set_option linter.all false

namespace CTInt

open MeasureTheory

variable {K : Type} [RCLike K] [DecidableEq K] {NI : K} {nf ns : ℕ} {σ : ℕ → ℕ} {π : ℕ → ℕ → ℕ} {tbl : List (VDef K)} {G0 : Op → Op → K} {β : ℝ}

/-- The conjugate of a vertex. -/
noncomputable def conjPt (σ : ℕ → ℕ) (π : ℕ → ℕ → ℕ) (β : ℝ) (p : Pt) : Pt := (σ p.1, π p.1 p.2.1, β - p.2.2)

/-- The conjugate of an operator pair. -/
noncomputable def conjRow (σ : ℕ → ℕ) (β : ℝ) (ρ : OpRow K) : OpRow K where
  cr := ⟨ρ.an.flavor, ρ.an.site, β - ρ.an.time, ρ.an.small⟩
  an := ⟨ρ.cr.flavor, ρ.cr.site, β - ρ.cr.time, ρ.cr.small⟩
  al := starRingEnd K ρ.al
  vi := ⟨σ ρ.vi.type, ρ.vi.rank, ρ.vi.uid⟩

theorem HermitianTerms.mem {t : ℕ} (ht : t < tbl.length) : tbl.getD t default ∈ tbl := by
  rw [List.getD_eq_getElem _ _ ht]
  exact List.getElem_mem _

theorem conj_rowsV (hT : HermitianTerms ns σ π tbl) {p : Pt} (hp : p.1 < tbl.length) (hs : p.2.1 < numStates tbl p.1) (z : ℕ) :
    rowsV NI tbl z (vertAt (conjPt σ π β p)) = (rowsV NI tbl z (vertAt p)).map (conjRow σ β) := by
  have hc := hT.conj p.1 hp
  have e : termOf tbl (vertAt (conjPt σ π β p)) = tbl.getD (σ p.1) default := rfl
  have e' : termOf tbl (vertAt p) = tbl.getD p.1 default := rfl
  unfold rowsV
  rw [e, e', hc.rank, List.map_map]
  have hfl : ∀ r < (tbl.getD p.1 default).rank, flavorOf tbl (vertAt (conjPt σ π β p)) r = flavorOf tbl (vertAt p) r := fun r hr =>
    hc.flavors r hr
  rw [List.filter_congr (q := fun r => decide (flavorOf tbl (vertAt p) r = z))
    (fun r hr => by rw [hfl r (List.mem_range.1 hr)])]
  refine List.map_congr_left fun r hr => ?_
  have hr := List.mem_range.1 (List.mem_filter.1 hr).1
  show rowOf NI tbl (vertAt (conjPt σ π β p)) r = conjRow σ β (rowOf NI tbl (vertAt p) r)
  unfold rowOf conjRow
  simp only [hfl r hr, e, e', hc.creator r hr, hc.annihilator r hr]
  have ha : fieldOf NI tbl (vertAt (conjPt σ π β p)) r = starRingEnd K (fieldOf NI tbl (vertAt p) r) := by
    show (if false = true then NI else (tbl.getD (σ p.1) default).alpha (π p.1 p.2.1) r) =
      starRingEnd K (if false = true then NI else (tbl.getD p.1 default).alpha p.2.1 r)
    simp only [Bool.false_eq_true, if_false]
    exact hc.fields _ hs r hr
  rw [ha]
  rfl

theorem conj_rows (hT : HermitianTerms ns σ π tbl) {x : List Pt} (hx : ValidPts β tbl x) (z : ℕ) :
    rowsOf NI tbl ((x.map (conjPt σ π β)).map vertAt) z = (rowsOf NI tbl (x.map vertAt) z).map (conjRow σ β) := by
  unfold rowsOf
  rw [List.map_map, List.flatMap_map, List.flatMap_map, List.map_flatMap]
  refine List.flatMap_congr fun p hp => ?_
  exact conj_rowsV hT (hx p hp).1 (hx p hp).2.1 z

theorem conj_row_mem (hT : HermitianTerms ns σ π tbl) {x : List Pt} (hx : ValidPts β tbl x) {z : ℕ} {ρ : OpRow K}
    (hρ : ρ ∈ rowsOf NI tbl (x.map vertAt) z) :
    ∃ s < ns, ∃ s' < ns, ∃ t k, 0 ≤ t ∧ t < β ∧ ρ.an = ⟨z, s, t, k⟩ ∧ ρ.cr = ⟨z, s', t, k⟩ := by
  unfold rowsOf at hρ
  rw [List.flatMap_map] at hρ
  obtain ⟨p, hp, hρ⟩ := List.mem_flatMap.1 hρ
  obtain ⟨r, hr, rfl⟩ := List.mem_map.1 hρ
  obtain ⟨h1, h2⟩ := List.mem_filter.1 hr
  have h2 : flavorOf tbl (vertAt p) r = z := of_decide_eq_true h2
  obtain ⟨q1, q2⟩ := hT.sites _ (HermitianTerms.mem (hx p hp).1) r (List.mem_range.1 h1)
  refine ⟨_, q2, _, q1, p.2.2, -(r : ℤ), (hx p hp).2.2.1, (hx p hp).2.2.2, ?_, ?_⟩
  · show Op.mk _ _ _ _ = _
    rw [h2]; rfl
  · show Op.mk _ _ _ _ = _
    rw [h2]; rfl

theorem conj_rows_apart (hT : HermitianTerms ns σ π tbl) {x : List Pt} (hx : ValidPts β tbl x)
    (hd : x.Pairwise fun p p' => p.2.2 ≠ p'.2.2) (z : ℕ) :
    (rowsOf NI tbl (x.map vertAt) z).Pairwise fun ρ ρ' => ρ.an.time ≠ ρ'.cr.time ∧ ρ'.an.time ≠ ρ.cr.time ∨
      ρ.an.site ≠ ρ'.cr.site ∧ ρ'.an.site ≠ ρ.cr.site := by
  unfold rowsOf
  rw [List.flatMap_map, List.pairwise_flatMap]
  constructor
  · intro p hp
    have hm := HermitianTerms.mem (hx p hp).1
    unfold rowsV
    rw [List.pairwise_map]
    refine List.Pairwise.imp_of_mem ?_ ((List.nodup_range (n := (termOf tbl (vertAt p)).rank)).filter _)
    intro r r' hr hr' hne
    obtain ⟨a1, a2⟩ := List.mem_filter.1 hr
    obtain ⟨b1, b2⟩ := List.mem_filter.1 hr'
    have a2 : (tbl.getD p.1 default).flavors.getD r 0 = z := of_decide_eq_true a2
    have b2 : (tbl.getD p.1 default).flavors.getD r' 0 = z := of_decide_eq_true b2
    exact .inr ⟨hT.apart _ hm r (List.mem_range.1 a1) r' (List.mem_range.1 b1) hne (a2.trans b2.symm),
      hT.apart _ hm r' (List.mem_range.1 b1) r (List.mem_range.1 a1) hne.symm (b2.trans a2.symm)⟩
  · refine List.Pairwise.imp_of_mem ?_ hd
    intro p p' hp hp' hne ρ hρ ρ' hρ'
    obtain ⟨r, -, rfl⟩ := List.mem_map.1 hρ
    obtain ⟨r', -, rfl⟩ := List.mem_map.1 hρ'
    exact .inl ⟨hne, hne.symm⟩

theorem conj_det (hT : HermitianTerms ns σ π tbl) (hG : HermitianG0 β nf ns G0) {x : List Pt} (hx : ValidPts β tbl x)
    (hd : x.Pairwise fun p p' => p.2.2 ≠ p'.2.2) {z : ℕ} (hz : z < nf) :
    starRingEnd K (detN (rowsOf NI tbl (x.map vertAt) z).length (rowG G0 (rowsOf NI tbl (x.map vertAt) z))) =
      detN (rowsOf NI tbl ((x.map (conjPt σ π β)).map vertAt) z).length (rowG G0 (rowsOf NI tbl ((x.map (conjPt σ π β)).map vertAt) z)) := by
  rw [conj_rows hT hx, List.length_map]
  have hm := fun ρ hρ => conj_row_mem (NI := NI) (z := z) (ρ := ρ) hT hx hρ
  have ha := conj_rows_apart (NI := NI) hT hx hd z
  generalize rowsOf NI tbl (x.map vertAt) z = R at hm ha ⊢
  unfold detN
  rw [RingHom.map_det, ← Matrix.det_transpose]
  congr 1
  ext i j
  have gi : ∀ i : Fin R.length, R.getD i default = R[i] := fun i => List.getD_eq_getElem _ _ i.2
  have gi' : ∀ i : Fin R.length, (R.map (conjRow σ β)).getD i default = conjRow σ β R[i] := fun i => by
    rw [List.getD_eq_getElem _ _ (by rw [List.length_map]; exact i.2)]
    simp
  show starRingEnd K (rowG G0 R j i) = rowG G0 (R.map (conjRow σ β)) i j
  unfold rowG specG
  simp only [gi, gi', map_sub]
  have key : starRingEnd K (G0 R[j].an R[i].cr) = G0 (conjRow σ β R[i]).an (conjRow σ β R[j]).cr := by
    obtain ⟨s, hs, -, -, t, k, t0, t1, e1, -⟩ := hm R[j] (List.getElem_mem _)
    obtain ⟨s0, -, s', hs', t', k', t0', t1', e1', e2⟩ := hm R[i] (List.getElem_mem _)
    unfold conjRow
    rw [e1, e2]
    refine hG z hz s hs s' hs' t t' k k' (abs_lt.2 ⟨by linarith, by linarith⟩) ?_
    rcases lt_trichotomy i j with hij | rfl | hij
    · have := List.pairwise_iff_getElem.1 ha i j i.2 j.2 hij
      have q : R[(i : ℕ)].cr = R[i].cr := rfl
      have q' : R[(j : ℕ)].an = R[j].an := rfl
      rw [q, q', e1, e2] at this
      rcases this with h | h
      · exact .inl h.2
      · exact .inr (.inr h.2)
    · rw [e1] at e1'
      injection e1' with _ _ _ h
      exact .inr (.inl h)
    · have := List.pairwise_iff_getElem.1 ha j i j.2 i.2 hij
      have q : R[(i : ℕ)].cr = R[i].cr := rfl
      have q' : R[(j : ℕ)].an = R[j].an := rfl
      rw [q, q', e1, e2] at this
      rcases this with h | h
      · exact .inl h.1
      · exact .inr (.inr h.1)
  rw [key]
  congr 1
  by_cases h : i = j
  · subst h
    simp [conjRow]
  · have h1 : (j : ℕ) ≠ i := fun e => h (Fin.ext e.symm)
    rw [if_neg h1, if_neg h1.symm, map_zero]

theorem conj_weight (hT : HermitianTerms ns σ π tbl) (hG : HermitianG0 β nf ns G0) {x : List Pt} (hx : ValidPts β tbl x)
    (hd : x.Pairwise fun p p' => p.2.2 ≠ p'.2.2) :
    starRingEnd K (weight NI nf G0 tbl (x.map vertAt)) = weight NI nf G0 tbl ((x.map (conjPt σ π β)).map vertAt) := by
  unfold weight detWeight uWeight
  rw [map_mul, map_prod, interacting_vertAt, interacting_vertAt]
  congr 1
  · exact Finset.prod_congr rfl fun z hz => conj_det hT hG hx hd (Finset.mem_range.1 hz)
  · rw [map_list_prod, List.map_map, List.map_map, List.map_map, List.map_map]
    refine congrArg List.prod (List.map_congr_left fun p hp => ?_)
    show starRingEnd K (-(tbl.getD p.1 default).U) = -(tbl.getD (σ p.1) default).U
    rw [(hT.conj p.1 (hx p hp).1).coupling, map_neg]

/-! ### The sum over all configurations -/

theorem conjPt_measurable : Measurable (conjPt σ π β) := by
  have h1 : Measurable fun p : Pt => σ p.1 := (Measurable.of_discrete (f := σ)).comp measurable_fst
  have h2 : Measurable fun p : Pt => π p.1 p.2.1 :=
    (Measurable.of_discrete (f := fun q : ℕ × ℕ => π q.1 q.2)).comp (measurable_fst.prodMk (measurable_fst.comp measurable_snd))
  exact h1.prodMk (h2.prodMk (measurable_const.sub (measurable_snd.comp measurable_snd)))

theorem map_reflect (β : ℝ) : (volume.restrict (Set.Ico 0 β)).map (fun τ => β - τ) = volume.restrict (Set.Ico 0 β) := by
  have h := Measure.measurePreserving_sub_left (volume : Measure ℝ) β
  have e : (fun τ => β - τ) ⁻¹' (Set.Ioc 0 β) = Set.Ico 0 β := by
    ext τ
    simp only [Set.mem_preimage, Set.mem_Ioc, Set.mem_Ico]
    constructor <;> rintro ⟨a, b⟩ <;> constructor <;> linarith
  have := (h.restrict_preimage (s := Set.Ioc 0 β) measurableSet_Ioc).map_eq
  rw [e] at this
  rw [this]
  exact Measure.restrict_congr_set Ico_ae_eq_Ioc.symm

theorem conjPt_preserves (hT : HermitianTerms ns σ π tbl) : MeasurePreserving (conjPt σ π β) (pointMeasure β tbl) (pointMeasure β tbl) := by
  refine ⟨conjPt_measurable, ?_⟩
  have hm : ∀ t f : ℕ, Measurable fun τ : ℝ => ((t, f, τ) : Pt) := fun t f => measurable_const.prodMk (measurable_const.prodMk measurable_id)
  have hone : ∀ t f : ℕ, ((volume.restrict (Set.Ico 0 β)).map fun τ => ((t, f, τ) : Pt)).map (conjPt σ π β) =
      (volume.restrict (Set.Ico 0 β)).map fun τ => ((σ t, π t f, τ) : Pt) := by
    intro t f
    rw [Measure.map_map conjPt_measurable (hm t f)]
    conv_rhs => rw [← map_reflect β, Measure.map_map (hm _ _) (show Measurable fun τ : ℝ => β - τ by fun_prop)]
    rfl
  unfold pointMeasure
  rw [Measure.map_finset_sum conjPt_measurable.aemeasurable]
  have : ∀ t ∈ Finset.range tbl.length, (∑ f ∈ Finset.range (numStates tbl t),
      (volume.restrict (Set.Ico 0 β)).map fun τ => ((t, f, τ) : Pt)).map (conjPt σ π β) =
      ∑ f ∈ Finset.range (numStates tbl (σ t)), (volume.restrict (Set.Ico 0 β)).map fun τ => ((σ t, f, τ) : Pt) := by
    intro t ht
    rw [Measure.map_finset_sum conjPt_measurable.aemeasurable, show numStates tbl (σ t) = numStates tbl t from (hT.conj t (Finset.mem_range.1 ht)).states]
    have ht' := Finset.mem_range.1 ht
    have hn : (tbl.getD (σ t) default).numAf = (tbl.getD t default).numAf := (hT.conj t ht').states
    have hst := hT.state t ht'
    have hst' := hT.state (σ t) (hT.exist t ht')
    rw [hT.twice t ht', hn] at hst'
    rw [Finset.sum_congr rfl fun f _ => hone t f]
    refine Finset.sum_bij (fun f _ => π t f) (fun f hf => Finset.mem_range.2 (hst f (Finset.mem_range.1 hf)).1) ?_ ?_ fun f _ => rfl
    · intro a ha b hb h
      rw [← (hst a (Finset.mem_range.1 ha)).2, ← (hst b (Finset.mem_range.1 hb)).2, h]
    · intro b hb
      obtain ⟨q1, q2⟩ := hst' b (Finset.mem_range.1 hb)
      exact ⟨π (σ t) b, Finset.mem_range.2 q1, q2⟩
  rw [Finset.sum_congr rfl this]
  refine Finset.sum_bij (fun t _ => σ t) (fun t ht => Finset.mem_range.2 (hT.exist t (Finset.mem_range.1 ht))) ?_ ?_ fun t _ => rfl
  · intro a ha b hb h
    rw [← hT.twice a (Finset.mem_range.1 ha), ← hT.twice b (Finset.mem_range.1 hb), h]
  · intro b hb
    exact ⟨σ b, Finset.mem_range.2 (hT.exist b (Finset.mem_range.1 hb)), hT.twice b (Finset.mem_range.1 hb)⟩

/-- The sum of a quantity that changes sign under conjugation vanishes. -/
theorem configSum_odd {c : Ctx K} (hT : HermitianTerms ns σ π c.tbl) {F : List Pt → ℝ} (hF : Measurable F)
    (h : ∀ x, ValidPts β c.tbl x → (x.Pairwise fun p p' => p.2.2 ≠ p'.2.2) → F (x.map (conjPt σ π β)) = - F x) (M : ℕ) :
    configSum c β M F = 0 := by
  unfold configSum
  refine Finset.sum_eq_zero fun n _ => ?_
  have hp : MeasurePreserving (fun (x : Fin n → Pt) i => conjPt σ π β (x i)) (Measure.pi fun _ => pointMeasure β c.tbl)
      (Measure.pi fun _ => pointMeasure β c.tbl) := measurePreserving_pi _ _ fun _ => conjPt_preserves hT
  set f : (Fin n → Pt) → ℝ := fun x => ((List.ofFn x).map fun p => ((numStates c.tbl p.1 : ℕ) : ℝ)⁻¹).prod * F (List.ofFn x) with hf
  have hfm : Measurable f := by
    refine Measurable.mul ?_ (hF.comp (measurable_ofFn n))
    have : (fun x : Fin n → Pt => ((List.ofFn x).map fun p => ((numStates c.tbl p.1 : ℕ) : ℝ)⁻¹).prod) =
        fun x => ∏ i, ((numStates c.tbl (x i).1 : ℕ) : ℝ)⁻¹ := by
      funext x
      rw [List.map_ofFn, List.prod_ofFn]
      rfl
    rw [this]
    refine Finset.measurable_prod _ fun i _ => ?_
    exact (Measurable.of_discrete (f := fun t : ℕ => ((numStates c.tbl t : ℕ) : ℝ)⁻¹)).comp (measurable_fst.comp (measurable_pi_apply i))
  have h1 : ∫ x, f x ∂(Measure.pi fun _ => pointMeasure β c.tbl) =
      ∫ x : Fin n → Pt, f (fun i => conjPt σ π β (x i)) ∂(Measure.pi fun _ => pointMeasure β c.tbl) := by
    conv_lhs => rw [← hp.map_eq]
    exact integral_map hp.measurable.aemeasurable hfm.aestronglyMeasurable
  have h2 : ∫ x : Fin n → Pt, f (fun i => conjPt σ π β (x i)) ∂(Measure.pi fun _ => pointMeasure β c.tbl) =
      ∫ x, - f x ∂(Measure.pi fun _ => pointMeasure β c.tbl) := by
    refine integral_congr_ae ?_
    filter_upwards [ae_validPts β c.tbl n, ae_distinct β c.tbl n] with x hx hd
    have hpw : (List.ofFn x).Pairwise fun p p' => p.2.2 ≠ p'.2.2 := by
      rw [List.pairwise_ofFn]
      intro i j hij
      exact hd i j hij.ne
    have e : List.ofFn (fun i => conjPt σ π β (x i)) = (List.ofFn x).map (conjPt σ π β) := by
      rw [List.map_ofFn]; rfl
    show _ * F (List.ofFn fun i => conjPt σ π β (x i)) = - (_ * _)
    rw [e, h _ hx hpw, List.map_map]
    have : List.map ((fun p : Pt => ((numStates c.tbl p.1 : ℕ) : ℝ)⁻¹) ∘ conjPt σ π β) (List.ofFn x) =
        List.map (fun p : Pt => ((numStates c.tbl p.1 : ℕ) : ℝ)⁻¹) (List.ofFn x) := by
      refine List.map_congr_left fun p hp => ?_
      have : numStates c.tbl (σ p.1) = numStates c.tbl p.1 := (hT.conj p.1 (hx p hp).1).states
      show ((numStates c.tbl (σ p.1) : ℕ) : ℝ)⁻¹ = _
      rw [this]
    rw [this]
    ring
  rw [integral_neg] at h2
  have h3 : ∫ x, f x ∂(Measure.pi fun _ => pointMeasure β c.tbl) = 0 := by linarith
  rw [h3, mul_zero]

end CTInt
