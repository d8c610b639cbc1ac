import Verif.Spec.Levels
import Verif.Proofs.LevelsDet
import Mathlib.Algebra.BigOperators.Ring.Finset
import Mathlib.Algebra.BigOperators.Fin

/-!
# The weights for levels coupled by densities
-/

set_option linter.all false

namespace CTInt

variable {β : ℝ} {nf ns : ℕ} {e : ℕ → ℕ → ℝ} {G0 : Op → Op → ℝ} {tbl : List (VDef ℝ)} {NI : ℝ}

/-- The occupation of a level. -/
noncomputable def fermi (β x : ℝ) : ℝ := 1 / (1 + Real.exp (β * x))

theorem fermi_eq (β x : ℝ) : fermi β x = Real.exp (-β * x) / (1 + Real.exp (-β * x)) ∧ 1 - fermi β x = 1 / (1 + Real.exp (-β * x)) := by
  have h : Real.exp (-β * x) = (Real.exp (β * x))⁻¹ := by rw [neg_mul, Real.exp_neg]
  have h0 := Real.exp_pos (β * x)
  unfold fermi
  rw [h]
  constructor <;> field_simp <;> ring

theorem statesZ_levels (β : ℝ) (nf ns : ℕ) (e : ℕ → ℕ → ℝ) :
    statesZ β nf ns (levelEnergy e) = ∏ i ∈ Finset.range nf ×ˢ Finset.range ns, (1 + Real.exp (-β * e i.1 i.2)) := by
  unfold statesZ states levelEnergy
  simp only [add_comm (1 : ℝ)]
  rw [Finset.prod_add]
  refine Finset.sum_congr rfl fun S _ => ?_
  rw [Finset.prod_const_one, mul_one, Finset.mul_sum, Real.exp_sum]

theorem statesZ_pos (β : ℝ) (nf ns : ℕ) (E : Finset (ℕ × ℕ) → ℝ) : 0 < statesZ β nf ns E :=
  Finset.sum_pos (fun S _ => Real.exp_pos _) ⟨∅, Finset.empty_mem_powerset _⟩

theorem prod_list_comm {α ι : Type} (s : Finset ι) (l : List α) (g : ι → α → ℝ) :
    ∏ i ∈ s, (l.map (g i)).prod = (l.map fun a => ∏ i ∈ s, g i a).prod := by
  induction l with
  | nil => simp
  | cons a l ih => simp only [List.map_cons, List.prod_cons, Finset.prod_mul_distrib, ih]

theorem prod_range_filter (n : ℕ) (q : ℕ → Bool) (g : ℕ → ℝ) :
    (((List.range n).filter q).map g).prod = ∏ r ∈ Finset.range n with q r = true, g r := by
  induction n with
  | zero => simp
  | succ n ih =>
    rw [List.range_succ, List.filter_append, List.map_append, List.prod_append, ih, Finset.range_add_one, Finset.filter_insert]
    by_cases h : q n = true
    · rw [if_pos h, Finset.prod_insert (by simp), List.filter_cons_of_pos h]
      simp [mul_comm]
    · rw [if_neg h, List.filter_cons_of_neg h]
      simp

/-- The determinant of a flavor. -/
theorem levels_det (hG : LevelsG0 β nf ns e G0) {z : ℕ} (hz : z < nf) {R : List (OpRow ℝ)}
    (hr : ∀ ρ ∈ R, ∃ s < ns, ∃ t k, 0 ≤ t ∧ t < β ∧ ρ.cr = ⟨z, s, t, k⟩ ∧ ρ.an = ⟨z, s, t, k⟩)
    (hd : R.Pairwise fun ρ ρ' => ρ.cr.site ≠ ρ'.cr.site ∨ ρ.cr.time ≠ ρ'.cr.time) :
    detN R.length (rowG G0 R) = ∏ s ∈ Finset.range ns,
      (fermi β (e z s) * (R.map fun ρ => if ρ.cr.site = s then 1 - ρ.al else 1).prod +
        (1 - fermi β (e z s)) * (R.map fun ρ => if ρ.cr.site = s then 0 - ρ.al else 1).prod) := by
  have hget : ∀ i : Fin R.length, R.getD i.val default = R[i.val] := fun i => by
    rw [List.getD_eq_getElem?_getD, List.getElem?_eq_getElem i.2]; rfl
  have hmem : ∀ i : Fin R.length, R[i.val] ∈ R := fun i => List.getElem_mem _
  have hdist : ∀ i j : Fin R.length, i ≠ j → R[i.val].cr.site = R[j.val].cr.site → R[i.val].cr.time ≠ R[j.val].cr.time := by
    intro i j hij h
    rcases Nat.lt_or_gt_of_ne (fun h => hij (Fin.ext h)) with hlt | hlt
    · exact (List.pairwise_iff_getElem.1 hd i.val j.val i.2 j.2 hlt).resolve_left (fun hc => hc h)
    · exact ((List.pairwise_iff_getElem.1 hd j.val i.val j.2 i.2 hlt).resolve_left (fun hc => hc h.symm)).symm
  unfold detN
  rw [det_levels (n := ns) (b := fun i : Fin R.length => R[i.val].cr.site)
    (fun i => by obtain ⟨s, hs, t, k, -, -, h, -⟩ := hr _ (hmem i); show R[i.val].cr.site < ns; rw [h]; exact hs)
    (τ := fun i => R[i.val].cr.time) hdist (fun i => R[i.val].al) (e z) (fun s => fermi β (e z s))]
  · refine Finset.prod_congr rfl fun s _ => ?_
    rw [Finset.prod_filter, Finset.prod_filter, ← Fin.prod_univ_fun_getElem R fun ρ => if ρ.cr.site = s then 1 - ρ.al else 1,
      ← Fin.prod_univ_fun_getElem R fun ρ => if ρ.cr.site = s then 0 - ρ.al else 1]
  · intro i j
    simp only [toM, Matrix.of_apply]
    unfold rowG specG
    simp only [hget i, hget j]
    obtain ⟨s, hs, t, k, t0, t1, h1, h2⟩ := hr _ (hmem i)
    obtain ⟨s', hs', t', k', t0', t1', h1', h2'⟩ := hr _ (hmem j)
    have hab : |t - t'| < β := abs_lt.2 ⟨by linarith, by linarith⟩
    by_cases hij : i = j
    · subst hij
      rw [if_pos rfl, if_pos rfl, if_pos rfl, sub_self, mul_zero, neg_zero, Real.exp_zero, one_mul, h1, h2, hG.density z hz s hs]
      rfl
    · rw [if_neg (fun h => hij (Fin.ext h)), if_neg hij, sub_zero]
      have hne := hdist i j hij
      rw [h1, h1'] at hne ⊢
      rw [h2]
      show G0 ⟨z, s, t, k⟩ ⟨z, s', t', k'⟩ = if s = s' then _ else _
      by_cases hss : s = s'
      · subst hss
        rw [if_pos rfl]
        rcases lt_or_gt_of_ne (hne rfl) with h | h
        · have h : t < t' := h
          rw [if_pos h, hG.earlier z hz s hs t t' k k' h hab]
          unfold fermi
          ring
        · have h : t' < t := h
          rw [if_neg (not_lt.2 h.le), hG.later z hz s hs t t' k k' h hab]
          have := (fermi_eq β (e z s)).2
          show _ = Real.exp (-(e z s * (t - t'))) * (fermi β (e z s) - 1)
          rw [show fermi β (e z s) - 1 = -(1 - fermi β (e z s)) by ring, this]
          ring
      · rw [if_neg hss, hG.apart z hz s hs s' hs' hss t t' k k' hab]

theorem rowsOf_vertAt {z : ℕ} {x : List Pt} : rowsOf NI tbl (x.map vertAt) z = x.flatMap fun p => rowsV NI tbl z (vertAt p) := by
  unfold rowsOf
  rw [List.flatMap_map]

/-- What a vertex contributes in one state. -/
theorem rows_prod (hT : ∀ d ∈ tbl, DensityTerm nf ns d) (S : Finset (ℕ × ℕ)) {x : List Pt} (hx : ∀ p ∈ x, p.1 < tbl.length) :
    ∏ z ∈ Finset.range nf, ((rowsOf NI tbl (x.map vertAt) z).map fun ρ => occ S z ρ.cr.site - ρ.al).prod =
      (x.map fun p => ∏ r ∈ Finset.range (tbl.getD p.1 default).rank,
        (occ S ((tbl.getD p.1 default).flavors.getD r 0) ((tbl.getD p.1 default).sites.getD (2 * r) 0) - (tbl.getD p.1 default).alpha p.2.1 r)).prod := by
  have h1 : ∀ z, ((rowsOf NI tbl (x.map vertAt) z).map fun ρ => occ S z ρ.cr.site - ρ.al).prod =
      (x.map fun p => ((rowsV NI tbl z (vertAt p)).map fun ρ => occ S z ρ.cr.site - ρ.al).prod).prod := by
    intro z
    rw [rowsOf_vertAt]
    clear hx
    induction x with
    | nil => rfl
    | cons p x ih => rw [List.flatMap_cons, List.map_append, List.prod_append, ih, List.map_cons, List.prod_cons]
  rw [Finset.prod_congr rfl fun z _ => h1 z, prod_list_comm]
  refine congrArg List.prod (List.map_congr_left fun p hp => ?_)
  have hd : DensityTerm nf ns (tbl.getD p.1 default) := by
    refine hT _ ?_
    rw [List.getD_eq_getElem?_getD, List.getElem?_eq_getElem (hx p hp)]
    exact List.getElem_mem _
  have h2 : ∀ z, ((rowsV NI tbl z (vertAt p)).map fun ρ => occ S z ρ.cr.site - ρ.al).prod =
      ∏ r ∈ Finset.range (tbl.getD p.1 default).rank with (tbl.getD p.1 default).flavors.getD r 0 = z,
        (occ S ((tbl.getD p.1 default).flavors.getD r 0) ((tbl.getD p.1 default).sites.getD (2 * r) 0) - (tbl.getD p.1 default).alpha p.2.1 r) := by
    intro z
    unfold rowsV
    rw [List.map_map, prod_range_filter]
    simp only [decide_eq_true_eq]
    show ∏ r ∈ Finset.range (tbl.getD p.1 default).rank with (tbl.getD p.1 default).flavors.getD r 0 = z, _ = _
    refine Finset.prod_congr rfl fun r hr => ?_
    rw [← (Finset.mem_filter.1 hr).2]
    rfl
  rw [Finset.prod_congr rfl fun z _ => h2 z]
  exact Finset.prod_fiberwise_of_maps_to (fun r hr => Finset.mem_range.2 (hd.lt r (Finset.mem_range.1 hr)).1) _

theorem rowsV_mem {z : ℕ} {p : Pt} {ρ : OpRow ℝ} (h : ρ ∈ rowsV NI tbl z (vertAt p)) :
    ∃ r < (tbl.getD p.1 default).rank, (tbl.getD p.1 default).flavors.getD r 0 = z ∧
      ρ.cr = ⟨z, (tbl.getD p.1 default).sites.getD (2 * r) 0, p.2.2, -(r : ℤ)⟩ ∧
      ρ.an = ⟨z, (tbl.getD p.1 default).sites.getD (2 * r + 1) 0, p.2.2, -(r : ℤ)⟩ := by
  unfold rowsV at h
  obtain ⟨r, hr, rfl⟩ := List.mem_map.1 h
  obtain ⟨h1, h2⟩ := List.mem_filter.1 hr
  have h2 : (tbl.getD p.1 default).flavors.getD r 0 = z := of_decide_eq_true h2
  refine ⟨r, List.mem_range.1 h1, h2, ?_, ?_⟩
  · rw [← h2]; rfl
  · rw [← h2]; rfl

/-- The determinants of all flavors for lists of operator pairs of densities. -/
theorem levels_rows (hG : LevelsG0 β nf ns e G0) {R : ℕ → List (OpRow ℝ)}
    (hr : ∀ z < nf, ∀ ρ ∈ R z, ∃ s < ns, ∃ t k, 0 ≤ t ∧ t < β ∧ ρ.cr = ⟨z, s, t, k⟩ ∧ ρ.an = ⟨z, s, t, k⟩)
    (hd : ∀ z < nf, (R z).Pairwise fun ρ ρ' => ρ.cr.site ≠ ρ'.cr.site ∨ ρ.cr.time ≠ ρ'.cr.time) :
    ∏ z ∈ Finset.range nf, detN (R z).length (rowG G0 (R z)) =
      (∑ S ∈ states nf ns, (∏ z ∈ Finset.range nf, ((R z).map fun ρ => occ S z ρ.cr.site - ρ.al).prod) * Real.exp (-β * levelEnergy e S)) /
        statesZ β nf ns (levelEnergy e) := by
  have hrow : ∀ z < nf, detN (R z).length (rowG G0 (R z)) = ∏ s ∈ Finset.range ns,
      (fermi β (e z s) * ((R z).map fun ρ => if ρ.cr.site = s then 1 - ρ.al else 1).prod +
        (1 - fermi β (e z s)) * ((R z).map fun ρ => if ρ.cr.site = s then 0 - ρ.al else 1).prod) :=
    fun z hz => levels_det hG hz (hr z hz) (hd z hz)
  rw [Finset.prod_congr rfl fun z hz => hrow z (Finset.mem_range.1 hz),
    ← Finset.prod_product' (f := fun z s => fermi β (e z s) * ((R z).map fun ρ => if ρ.cr.site = s then 1 - ρ.al else 1).prod +
        (1 - fermi β (e z s)) * ((R z).map fun ρ => if ρ.cr.site = s then 0 - ρ.al else 1).prod),
    Finset.prod_add, statesZ_levels, eq_div_iff (Finset.prod_pos fun i _ => by positivity).ne', Finset.sum_mul]
  refine Finset.sum_congr rfl fun S hS => ?_
  have hsub : S ⊆ Finset.range nf ×ˢ Finset.range ns := Finset.mem_powerset.1 hS
  set L := Finset.range nf ×ˢ Finset.range ns with hL
  rw [Finset.prod_mul_distrib, Finset.prod_mul_distrib]
  -- the occupations
  have hp : (∏ i ∈ S, fermi β (e i.1 i.2)) * (∏ i ∈ L \ S, (1 - fermi β (e i.1 i.2))) * ∏ i ∈ L, (1 + Real.exp (-β * e i.1 i.2)) =
      Real.exp (-β * levelEnergy e S) := by
    rw [← Finset.prod_sdiff hsub (f := fun i => 1 + Real.exp (-β * e i.1 i.2))]
    have q1 : (∏ i ∈ S, fermi β (e i.1 i.2)) * ∏ i ∈ S, (1 + Real.exp (-β * e i.1 i.2)) = Real.exp (-β * levelEnergy e S) := by
      unfold levelEnergy
      rw [← Finset.prod_mul_distrib, Finset.mul_sum, Real.exp_sum]
      refine Finset.prod_congr rfl fun i _ => ?_
      rw [(fermi_eq β _).1, div_mul_cancel₀ _ (by positivity)]
    have q2 : (∏ i ∈ L \ S, (1 - fermi β (e i.1 i.2))) * ∏ i ∈ L \ S, (1 + Real.exp (-β * e i.1 i.2)) = 1 := by
      rw [← Finset.prod_mul_distrib]
      refine Finset.prod_eq_one fun i _ => ?_
      rw [(fermi_eq β _).2, div_mul_cancel₀ _ (by positivity)]
    rw [← q1]
    linear_combination ((∏ i ∈ S, fermi β (e i.1 i.2)) * ∏ i ∈ S, (1 + Real.exp (-β * e i.1 i.2))) * q2
  -- the fields
  have hf : (∏ i ∈ S, ((R i.1).map fun ρ => if ρ.cr.site = i.2 then 1 - ρ.al else 1).prod) *
      (∏ i ∈ L \ S, ((R i.1).map fun ρ => if ρ.cr.site = i.2 then 0 - ρ.al else 1).prod) =
      ∏ z ∈ Finset.range nf, ((R z).map fun ρ => occ S z ρ.cr.site - ρ.al).prod := by
    have q1 : (∏ i ∈ S, ((R i.1).map fun ρ => if ρ.cr.site = i.2 then 1 - ρ.al else 1).prod) =
        ∏ i ∈ S, ((R i.1).map fun ρ => if ρ.cr.site = i.2 then occ S i.1 i.2 - ρ.al else 1).prod :=
      Finset.prod_congr rfl fun i hi => by rw [occ, if_pos hi]
    have q2 : (∏ i ∈ L \ S, ((R i.1).map fun ρ => if ρ.cr.site = i.2 then 0 - ρ.al else 1).prod) =
        ∏ i ∈ L \ S, ((R i.1).map fun ρ => if ρ.cr.site = i.2 then occ S i.1 i.2 - ρ.al else 1).prod :=
      Finset.prod_congr rfl fun i hi => by rw [occ, if_neg (Finset.mem_sdiff.1 hi).2]
    rw [q1, q2, mul_comm, Finset.prod_sdiff hsub,
      Finset.prod_product' (f := fun z s => ((R z).map fun ρ => if ρ.cr.site = s then occ S z s - ρ.al else 1).prod)]
    refine Finset.prod_congr rfl fun z hz => ?_
    rw [prod_list_comm]
    refine congrArg List.prod (List.map_congr_left fun ρ hρ => ?_)
    obtain ⟨s, hs, t, k, -, -, h2, -⟩ := hr z (Finset.mem_range.1 hz) ρ hρ
    rw [Finset.prod_ite_eq, if_pos]
    rw [h2]
    exact Finset.mem_range.2 hs
  rw [← hf, ← hp]
  ring


theorem term_of_pt (hT : ∀ d ∈ tbl, DensityTerm nf ns d) {p : Pt} (hp : p.1 < tbl.length) : DensityTerm nf ns (tbl.getD p.1 default) := by
  refine hT _ ?_
  rw [List.getD_eq_getElem?_getD, List.getElem?_eq_getElem hp]
  exact List.getElem_mem _

theorem interacting_vertAt (x : List Pt) : interacting (x.map vertAt) = x.map vertAt := by
  unfold interacting
  rw [List.filter_eq_self]
  intro v hv
  obtain ⟨p, -, rfl⟩ := List.mem_map.1 hv
  rfl

/-- The operator pairs of a configuration are pairs of densities in [0,β). -/
theorem rows_level (hT : ∀ d ∈ tbl, DensityTerm nf ns d) {x : List Pt} (hx : ValidPts β tbl x) (z : ℕ) :
    ∀ ρ ∈ rowsOf NI tbl (x.map vertAt) z, ∃ s < ns, ∃ t k, (∃ p ∈ x, p.2.2 = t) ∧ 0 ≤ t ∧ t < β ∧ ρ.cr = ⟨z, s, t, k⟩ ∧ ρ.an = ⟨z, s, t, k⟩ := by
  intro ρ hρ
  rw [rowsOf_vertAt] at hρ
  obtain ⟨p, hp, hρ⟩ := List.mem_flatMap.1 hρ
  obtain ⟨r, hr, h1, h2, h3⟩ := rowsV_mem hρ
  have ht := term_of_pt hT (hx p hp).1
  rw [ht.same r hr] at h3
  exact ⟨_, (ht.lt r hr).2, p.2.2, _, ⟨p, hp, rfl⟩, (hx p hp).2.2.1, (hx p hp).2.2.2, h2, h3⟩

theorem rows_differ (hT : ∀ d ∈ tbl, DensityTerm nf ns d) {x : List Pt} (hx : ValidPts β tbl x) (hd : x.Pairwise fun p p' => p.2.2 ≠ p'.2.2) (z : ℕ) :
    (rowsOf NI tbl (x.map vertAt) z).Pairwise fun ρ ρ' => ρ.cr.site ≠ ρ'.cr.site ∨ ρ.cr.time ≠ ρ'.cr.time := by
  rw [rowsOf_vertAt, List.pairwise_flatMap]
  constructor
  · intro p hp
    have ht := term_of_pt hT (hx p hp).1
    unfold rowsV
    rw [List.pairwise_map]
    refine List.Pairwise.imp_of_mem ?_ ((List.nodup_range (n := (termOf tbl (vertAt p)).rank)).filter _)
    intro r r' hr hr' hne
    obtain ⟨a1, a2⟩ := List.mem_filter.1 hr
    obtain ⟨b1, b2⟩ := List.mem_filter.1 hr'
    have a2 : (tbl.getD p.1 default).flavors.getD r 0 = z := of_decide_eq_true a2
    have b2 : (tbl.getD p.1 default).flavors.getD r' 0 = z := of_decide_eq_true b2
    refine Or.inl fun hc => ht.diff r (List.mem_range.1 a1) r' (List.mem_range.1 b1) hne ?_
    rw [a2, b2]
    exact congrArg (Prod.mk z) hc
  · refine List.Pairwise.imp_of_mem ?_ hd
    intro p p' hp hp' hne ρ hρ ρ' hρ'
    obtain ⟨r, -, -, h2, -⟩ := rowsV_mem hρ
    obtain ⟨r', -, -, h2', -⟩ := rowsV_mem hρ'
    right
    rw [h2, h2']
    exact hne

theorem rows_terms (hT : ∀ d ∈ tbl, DensityTerm nf ns d) {x : List Pt} (hx : ValidPts β tbl x) (S : Finset (ℕ × ℕ)) :
    (∏ z ∈ Finset.range nf, ((rowsOf NI tbl (x.map vertAt) z).map fun ρ => occ S z ρ.cr.site - ρ.al).prod) * uWeight tbl (x.map vertAt) =
      (x.map fun p => - fieldTerm S (tbl.getD p.1 default) p.2.1).prod := by
  unfold uWeight
  rw [interacting_vertAt, rows_prod hT S fun p hp => (hx p hp).1, List.map_map, ← List.prod_map_mul]
  refine congrArg List.prod (List.map_congr_left fun p hp => ?_)
  unfold fieldTerm
  show _ * - (tbl.getD p.1 default).U = _
  ring

theorem levels_weight (hT : ∀ d ∈ tbl, DensityTerm nf ns d) (hG : LevelsG0 β nf ns e G0) {x : List Pt} (hx : ValidPts β tbl x)
    (hd : x.Pairwise fun p p' => p.2.2 ≠ p'.2.2) :
    weight NI nf G0 tbl (x.map vertAt) =
      (∑ S ∈ states nf ns, (x.map fun p => - fieldTerm S (tbl.getD p.1 default) p.2.1).prod * Real.exp (-β * levelEnergy e S)) /
        statesZ β nf ns (levelEnergy e) := by
  unfold weight detWeight
  rw [interacting_vertAt, levels_rows hG (R := fun z => rowsOf NI tbl (x.map vertAt) z)
    (fun z _ ρ hρ => by obtain ⟨s, hs, t, k, -, h⟩ := rows_level hT hx z ρ hρ; exact ⟨s, hs, t, k, h⟩) (fun z _ => rows_differ hT hx hd z),
    div_mul_eq_mul_div, Finset.sum_mul]
  congr 1
  refine Finset.sum_congr rfl fun S _ => ?_
  rw [← rows_terms hT hx S]
  ring

end CTInt
