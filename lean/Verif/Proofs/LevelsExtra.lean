import Verif.Proofs.LevelsSum
import Verif.Spec.Postprocess

/-!
# Densities of levels coupled by densities: configurations with more pairs of operators
-/

set_option linter.all false

namespace CTInt

open MeasureTheory

variable {β : ℝ} {nf ns : ℕ} {e : ℕ → ℕ → ℝ} {G0 : Op → Op → ℝ} {G : ℝ → ℕ → ℕ → ℕ → ℝ} {tbl : List (VDef ℝ)} {NI : ℝ}

/-- A pair of operators of a density with the field `a`. -/
noncomputable def densRow (z s : ℕ) (τ a : ℝ) : OpRow ℝ := ⟨⟨z, s, τ, 0⟩, ⟨z, s, τ, 0⟩, a, default⟩

/-- What the density measured with time difference `ε` falls short of. -/
noncomputable def densShift (β : ℝ) (e : ℕ → ℕ → ℝ) (G : ℝ → ℕ → ℕ → ℕ → ℝ) (ε : ℝ) (z s : ℕ) : ℝ := fermi β (e z s) - G ε z s s

/-- More pairs of operators at time `τ`. -/
theorem more_pairs (hG0 : LevelsG0 β nf ns e G0) (hG : LevelsG β nf ns e G) {z : ℕ} (hz : z < nf) {R : List (OpRow ℝ)} {ε τ : ℝ} (hε : |ε| < β)
    (h0 : 0 ≤ τ) (h1 : τ < β)
    (hr : ∀ ρ ∈ R, ∃ s < ns, ∃ t k, t ≠ τ ∧ 0 ≤ t ∧ t < β ∧ ρ.cr = ⟨z, s, t, k⟩ ∧ ρ.an = ⟨z, s, t, k⟩) {E : List ℕ} (hE : ∀ s ∈ E, s < ns) (hn : E.Nodup)
    {i j : ℕ} (hi : i < R.length + E.length) (hj : j < R.length + E.length) :
    rowG G0 (R ++ E.map fun s => densRow z s τ (densShift β e G ε z s)) i j =
      if i < R.length then
        if j < R.length then rowG G0 R i j else G ((R.getD i default).an.time - τ) z (R.getD i default).an.site (E.getD (j - R.length) 0)
      else
        if j < R.length then G (τ - (R.getD j default).cr.time) z (E.getD (i - R.length) 0) (R.getD j default).cr.site
        else G ε z (E.getD (i - R.length) 0) (E.getD (j - R.length) 0) := by
  have getL : ∀ k, k < R.length → (R ++ E.map fun s => densRow z s τ (densShift β e G ε z s)).getD k default = R.getD k default ∧ R.getD k default ∈ R := by
    intro k hk
    rw [List.getD_append _ _ _ _ hk]
    refine ⟨rfl, ?_⟩
    rw [List.getD_eq_getElem?_getD, List.getElem?_eq_getElem hk]
    exact List.getElem_mem _
  have getR : ∀ k, k < R.length + E.length → ¬ k < R.length →
      (R ++ E.map fun s => densRow z s τ (densShift β e G ε z s)).getD k default =
        densRow z (E.getD (k - R.length) 0) τ (densShift β e G ε z (E.getD (k - R.length) 0)) ∧ E.getD (k - R.length) 0 ∈ E := by
    intro k hk hk'
    have hlt : k - R.length < E.length := by omega
    rw [List.getD_append_right _ _ _ _ (by omega), List.getD_eq_getElem?_getD, List.getElem?_map, List.getD_eq_getElem?_getD, List.getElem?_eq_getElem hlt]
    exact ⟨rfl, List.getElem_mem _⟩
  unfold rowG specG
  beta_reduce
  by_cases hi' : i < R.length
  · rw [if_pos hi', (getL i hi').1]
    obtain ⟨s, hs, t, k, hne, t0, t1, -, e2⟩ := hr _ (getL i hi').2
    by_cases hj' : j < R.length
    · rw [if_pos hj', (getL j hj').1]
    · rw [if_neg hj', (getR j hj hj').1, if_neg (by omega), sub_zero, e2]
      have hs' := hE _ (getR j hj hj').2
      generalize E.getD (j - R.length) 0 = s' at hs'
      show G0 ⟨z, s, t, k⟩ ⟨z, s', τ, 0⟩ = G (t - τ) z s s'
      have hab : |t - τ| < β := abs_lt.2 ⟨by linarith, by linarith⟩
      by_cases hss : s = s'
      · subst hss
        rcases lt_or_gt_of_ne hne with hl | hl
        · rw [hG0.earlier z hz s hs t τ k 0 hl hab, hG.earlier z hz s hs (t - τ) (by linarith) (by linarith)]
        · rw [hG0.later z hz s hs t τ k 0 hl hab, hG.later z hz s hs (t - τ) (by linarith) (by linarith)]
      · rw [hG0.apart z hz s hs s' hs' hss t τ k 0 hab, hG.apart z hz s hs s' hs' hss _ hab]
  · rw [if_neg hi', (getR i hi hi').1]
    have hs := hE _ (getR i hi hi').2
    by_cases hj' : j < R.length
    · obtain ⟨s', hs', t, k, hne, t0, t1, e1, -⟩ := hr _ (getL j hj').2
      rw [if_pos hj', (getL j hj').1, if_neg (by omega), sub_zero, e1]
      generalize E.getD (i - R.length) 0 = s at hs
      show G0 ⟨z, s, τ, 0⟩ ⟨z, s', t, k⟩ = G (τ - t) z s s'
      have hab : |τ - t| < β := abs_lt.2 ⟨by linarith, by linarith⟩
      by_cases hss : s = s'
      · subst hss
        rcases lt_or_gt_of_ne hne with hl | hl
        · rw [hG0.later z hz s hs τ t 0 k hl hab, hG.later z hz s hs (τ - t) (by linarith) (by linarith)]
        · rw [hG0.earlier z hz s hs τ t 0 k hl hab, hG.earlier z hz s hs (τ - t) (by linarith) (by linarith)]
      · rw [hG0.apart z hz s hs s' hs' hss τ t 0 k hab, hG.apart z hz s hs s' hs' hss _ hab]
    · rw [if_neg hj', (getR j hj hj').1]
      have hs' := hE _ (getR j hj hj').2
      by_cases hij : i = j
      · subst hij
        rw [if_pos rfl]
        generalize E.getD (i - R.length) 0 = s at hs
        show G0 ⟨z, s, τ, 0⟩ ⟨z, s, τ, 0⟩ - densShift β e G ε z s = G ε z s s
        rw [hG0.density z hz s hs]
        unfold densShift fermi
        ring
      · rw [if_neg hij, sub_zero]
        have hne : E.getD (i - R.length) 0 ≠ E.getD (j - R.length) 0 := by
          have a1 : i - R.length < E.length := by omega
          have a2 : j - R.length < E.length := by omega
          rw [List.getD_eq_getElem?_getD, List.getD_eq_getElem?_getD, List.getElem?_eq_getElem a1, List.getElem?_eq_getElem a2]
          intro hc
          have := (List.Nodup.getElem_inj_iff hn).1 (show E[i - R.length] = E[j - R.length] from hc)
          omega
        generalize E.getD (i - R.length) 0 = s at hs hne
        generalize E.getD (j - R.length) 0 = s' at hs' hne
        show G0 ⟨z, s, τ, 0⟩ ⟨z, s', τ, 0⟩ = G ε z s s'
        rw [hG0.apart z hz s hs s' hs' hne τ τ 0 0 (by rw [sub_self, abs_zero]; linarith), hG.apart z hz s hs s' hs' hne ε hε]

theorem detN_congr_lt {n : ℕ} {f g : ℕ → ℕ → ℝ} (h : ∀ i < n, ∀ j < n, f i j = g i j) : detN n f = detN n g := by
  unfold detN
  congr 1
  ext i j
  exact h i.val i.2 j.val j.2

/-- One more pair. -/
theorem one_pair (hG0 : LevelsG0 β nf ns e G0) (hG : LevelsG β nf ns e G) {z : ℕ} (hz : z < nf) {R : List (OpRow ℝ)} {ε τ : ℝ} (hε : |ε| < β)
    (h0 : 0 ≤ τ) (h1 : τ < β)
    (hr : ∀ ρ ∈ R, ∃ s < ns, ∃ t k, t ≠ τ ∧ 0 ≤ t ∧ t < β ∧ ρ.cr = ⟨z, s, t, k⟩ ∧ ρ.an = ⟨z, s, t, k⟩) {s : ℕ} (hs : s < ns) :
    detN (R.length + 1) (extraPair G0 G z R ε τ s s) =
      detN (R ++ [s].map fun s => densRow z s τ (densShift β e G ε z s)).length (rowG G0 (R ++ [s].map fun s => densRow z s τ (densShift β e G ε z s))) := by
  rw [show (R ++ [s].map fun s => densRow z s τ (densShift β e G ε z s)).length = R.length + 1 by simp]
  refine detN_congr_lt fun i hi j hj => ?_
  rw [more_pairs hG0 hG hz hε h0 h1 hr (E := [s]) (by simpa using hs) (by simp) (by simpa using hi) (by simpa using hj)]
  unfold extraPair
  by_cases hi' : i < R.length <;> by_cases hj' : j < R.length
  · simp [hi', hj']
  · simp [hi', hj', show j - R.length = 0 by omega]
  · simp [hi', hj', show i - R.length = 0 by omega]
  · simp [hi', hj', show i - R.length = 0 by omega, show j - R.length = 0 by omega]

/-- Two more pairs. -/
theorem two_pairs (hG0 : LevelsG0 β nf ns e G0) (hG : LevelsG β nf ns e G) {z : ℕ} (hz : z < nf) {R : List (OpRow ℝ)} {ε τ : ℝ} (hε : |ε| < β)
    (h0 : 0 ≤ τ) (h1 : τ < β)
    (hr : ∀ ρ ∈ R, ∃ s < ns, ∃ t k, t ≠ τ ∧ 0 ≤ t ∧ t < β ∧ ρ.cr = ⟨z, s, t, k⟩ ∧ ρ.an = ⟨z, s, t, k⟩) {s s' : ℕ} (hs : s < ns) (hs' : s' < ns)
    (hne : s ≠ s') :
    detN (R.length + 2) (twoPairs G0 G z R ε τ s s') =
      detN (R ++ [s, s'].map fun s => densRow z s τ (densShift β e G ε z s)).length
        (rowG G0 (R ++ [s, s'].map fun s => densRow z s τ (densShift β e G ε z s))) := by
  rw [show (R ++ [s, s'].map fun s => densRow z s τ (densShift β e G ε z s)).length = R.length + 2 by simp]
  refine detN_congr_lt fun i hi j hj => ?_
  rw [more_pairs hG0 hG hz hε h0 h1 hr (E := [s, s']) (by simpa using ⟨hs, hs'⟩) (by simpa using hne) (by simpa using hi) (by simpa using hj)]
  have hsite : ∀ k, ¬ k < R.length → k < R.length + 2 → (if k = R.length then s else s') = [s, s'].getD (k - R.length) 0 := by
    intro k h1 h2
    obtain rfl | rfl : k = R.length ∨ k = R.length + 1 := by omega
    · simp
    · simp
  unfold twoPairs
  simp only []
  by_cases hi' : i < R.length <;> by_cases hj' : j < R.length
  · simp only [if_pos hi', if_pos hj']
  · simp only [if_pos hi', if_neg hj', hsite j hj' hj]
  · simp only [if_neg hi', if_pos hj', hsite i hi' hi]
  · simp only [if_neg hi', if_neg hj', hsite i hi' hi, hsite j hj' hj]

/-- The weight of a configuration with more pairs, those on the sites `E z` of flavor `z`. -/
theorem pairs_weight (hT : ∀ d ∈ tbl, DensityTerm nf ns d) (hG0 : LevelsG0 β nf ns e G0) (hG : LevelsG β nf ns e G) {ε τ : ℝ} (h0 : 0 ≤ τ) (h1 : τ < β)
    {x : List Pt} (hx : ValidPts β tbl x) (hd : x.Pairwise fun p p' => p.2.2 ≠ p'.2.2) (hτ : ∀ p ∈ x, p.2.2 ≠ τ) {E : ℕ → List ℕ}
    (hE : ∀ z < nf, ∀ s ∈ E z, s < ns) (hn : ∀ z < nf, (E z).Nodup) :
    (∏ z ∈ Finset.range nf, detN (rowsOf NI tbl (x.map vertAt) z ++ (E z).map fun s => densRow z s τ (densShift β e G ε z s)).length
      (rowG G0 (rowsOf NI tbl (x.map vertAt) z ++ (E z).map fun s => densRow z s τ (densShift β e G ε z s)))) * uWeight tbl (x.map vertAt) =
      (∑ S ∈ states nf ns, (∏ z ∈ Finset.range nf, ((E z).map fun s => occ S z s - densShift β e G ε z s).prod) *
        (x.map fun p => - fieldTerm S (tbl.getD p.1 default) p.2.1).prod * Real.exp (-β * levelEnergy e S)) / statesZ β nf ns (levelEnergy e) := by
  rw [levels_rows hG0 (R := fun z => rowsOf NI tbl (x.map vertAt) z ++ (E z).map fun s => densRow z s τ (densShift β e G ε z s)), div_mul_eq_mul_div, Finset.sum_mul]
  · congr 1
    refine Finset.sum_congr rfl fun S _ => ?_
    rw [← rows_terms hT hx S (NI := NI)]
    simp only [List.map_append, List.prod_append, Finset.prod_mul_distrib, List.map_map]
    have : ∀ z, (List.map ((fun ρ : OpRow ℝ => occ S z ρ.cr.site - ρ.al) ∘ fun s => densRow z s τ (densShift β e G ε z s)) (E z)) =
        (E z).map fun s => occ S z s - densShift β e G ε z s := fun z => rfl
    simp only [this]
    ring
  · intro z hz ρ hρ
    rcases List.mem_append.1 hρ with hρ | hρ
    · obtain ⟨s, hs, t, k, -, h⟩ := rows_level hT hx z ρ hρ
      exact ⟨s, hs, t, k, h⟩
    · obtain ⟨s, hs, rfl⟩ := List.mem_map.1 hρ
      exact ⟨s, hE z hz s hs, τ, 0, h0, h1, rfl, rfl⟩
  · intro z hz
    refine List.pairwise_append.2 ⟨rows_differ hT hx hd z, ?_, ?_⟩
    · rw [List.pairwise_map]
      exact (hn z hz).imp fun h => Or.inl h
    · intro ρ hρ ρ' hρ'
      obtain ⟨s, hs, t, k, ⟨p, hp, rfl⟩, -, -, h, -⟩ := rows_level hT hx z ρ hρ
      obtain ⟨s', hs', rfl⟩ := List.mem_map.1 hρ'
      right
      rw [h]
      exact hτ p hp

/-- The weight with one more pair. -/
theorem levels_extra {c : Ctx ℝ} (hT : ∀ d ∈ c.tbl, DensityTerm c.nf ns d) (hG0 : LevelsG0 β c.nf ns e c.G0) (hG : LevelsG β c.nf ns e G) {ε τ : ℝ}
    (hε : |ε| < β) (h0 : 0 ≤ τ) (h1 : τ < β) {x : List Pt} (hx : ValidPts β c.tbl x) (hd : x.Pairwise fun p p' => p.2.2 ≠ p'.2.2)
    (hτ : ∀ p ∈ x, p.2.2 ≠ τ) {z s : ℕ} (hz : z < c.nf) (hs : s < ns) :
    weightExtra c G z ε τ s s (x.map vertAt) =
      (∑ S ∈ states c.nf ns, (occ S z s - densShift β e G ε z s) * (x.map fun p => - fieldTerm S (c.tbl.getD p.1 default) p.2.1).prod *
        Real.exp (-β * levelEnergy e S)) / statesZ β c.nf ns (levelEnergy e) := by
  have key := pairs_weight (NI := c.NI) (ε := ε) hT hG0 hG h0 h1 hx hd hτ (E := fun z' => if z' = z then [s] else [])
    (fun z' _ s' hs' => by split at hs' <;> simp at hs'; rw [hs']; exact hs) (fun z' _ => by split <;> simp)
  have e1 : ∀ S, ∏ z' ∈ Finset.range c.nf, ((if z' = z then [s] else []).map fun s => occ S z' s - densShift β e G ε z' s).prod =
      occ S z s - densShift β e G ε z s := by
    intro S
    rw [Finset.prod_eq_single z (fun z' _ hne => by rw [if_neg hne]; rfl) (fun h => absurd (Finset.mem_range.2 hz) h), if_pos rfl]
    simp
  simp only [e1] at key
  rw [← key]
  unfold weightExtra
  rw [interacting_vertAt]
  congr 1
  refine Finset.prod_congr rfl fun z' hz' => ?_
  by_cases h : z' = z
  · subst h
    rw [if_pos rfl, if_pos rfl]
    exact one_pair hG0 hG hz hε h0 h1 (fun ρ hρ => by
      obtain ⟨s, hs, t, k, ⟨p, hp, rfl⟩, h⟩ := rows_level hT hx z' ρ hρ
      exact ⟨s, hs, p.2.2, k, hτ p hp, h⟩) hs
  · rw [if_neg h, if_neg h, List.map_nil, List.append_nil]

/-- The weight with the pairs for the product of two densities. -/
theorem levels_two {c : Ctx ℝ} (hT : ∀ d ∈ c.tbl, DensityTerm c.nf ns d) (hG0 : LevelsG0 β c.nf ns e c.G0) (hG : LevelsG β c.nf ns e G) {ε τ : ℝ}
    (hε : |ε| < β) (h0 : 0 ≤ τ) (h1 : τ < β) {x : List Pt} (hx : ValidPts β c.tbl x) (hd : x.Pairwise fun p p' => p.2.2 ≠ p'.2.2)
    (hτ : ∀ p ∈ x, p.2.2 ≠ τ) {z s z' s' : ℕ} (hz : z < c.nf) (hs : s < ns) (hz' : z' < c.nf) (hs' : s' < ns) :
    weightTwo c G ε τ z s z' s' (x.map vertAt) =
      (∑ S ∈ states c.nf ns, (if (z, s) = (z', s') then occ S z s - densShift β e G ε z s else
          (occ S z s - densShift β e G ε z s) * (occ S z' s' - densShift β e G ε z' s')) *
        (x.map fun p => - fieldTerm S (c.tbl.getD p.1 default) p.2.1).prod *
        Real.exp (-β * levelEnergy e S)) / statesZ β c.nf ns (levelEnergy e) := by
  have hr : ∀ y, ∀ ρ ∈ rowsOf c.NI c.tbl (x.map vertAt) y, ∃ s < ns, ∃ t k, t ≠ τ ∧ 0 ≤ t ∧ t < β ∧ ρ.cr = ⟨y, s, t, k⟩ ∧ ρ.an = ⟨y, s, t, k⟩ :=
    fun y ρ hρ => by
      obtain ⟨s, hs, t, k, ⟨p, hp, rfl⟩, h⟩ := rows_level hT hx y ρ hρ
      exact ⟨s, hs, p.2.2, k, hτ p hp, h⟩
  by_cases hzz : z = z'
  · subst hzz
    by_cases hss : s = s'
    · subst hss
      simp only [if_true]
      rw [← levels_extra hT hG0 hG hε h0 h1 hx hd hτ hz hs]
      unfold weightTwo weightExtra
      congr 1
      refine Finset.prod_congr rfl fun y _ => ?_
      rw [if_pos rfl]
      by_cases h : y = z
      · subst h
        rw [if_pos rfl, if_pos rfl, if_pos rfl]
      · rw [if_neg h, if_neg h]
    · have hp : ((z, s) : ℕ × ℕ) ≠ (z, s') := fun h => hss (Prod.mk.inj h).2
      simp only [if_neg hp]
      have key := pairs_weight (NI := c.NI) (ε := ε) hT hG0 hG h0 h1 hx hd hτ (E := fun y => if y = z then [s, s'] else [])
        (fun y _ r hr' => by
          split at hr'
          · simp at hr'
            rcases hr' with rfl | rfl
            · exact hs
            · exact hs'
          · simp at hr') (fun y _ => by split <;> simp [hss])
      have e1 : ∀ S, ∏ y ∈ Finset.range c.nf, ((if y = z then [s, s'] else []).map fun s => occ S y s - densShift β e G ε y s).prod =
          (occ S z s - densShift β e G ε z s) * (occ S z s' - densShift β e G ε z s') := by
        intro S
        rw [Finset.prod_eq_single z (fun y _ hne => by rw [if_neg hne]; rfl) (fun h => absurd (Finset.mem_range.2 hz) h), if_pos rfl]
        simp
      simp only [e1] at key
      rw [← key]
      unfold weightTwo
      rw [interacting_vertAt]
      congr 1
      refine Finset.prod_congr rfl fun y hy => ?_
      rw [if_pos rfl]
      by_cases h : y = z
      · subst h
        rw [if_pos rfl, if_pos rfl, if_neg hss]
        exact two_pairs hG0 hG hz hε h0 h1 (hr y) hs hs' hss
      · rw [if_neg h, if_neg h, List.map_nil, List.append_nil]
  · have hp : ((z, s) : ℕ × ℕ) ≠ (z', s') := fun h => hzz (Prod.mk.inj h).1
    simp only [if_neg hp]
    have key := pairs_weight (NI := c.NI) (ε := ε) hT hG0 hG h0 h1 hx hd hτ (E := fun y => if y = z then [s] else if y = z' then [s'] else [])
      (fun y _ r hr' => by
        split at hr'
        · simp at hr'
          rw [hr']
          exact hs
        · split at hr'
          · simp at hr'
            rw [hr']
            exact hs'
          · simp at hr') (fun y _ => by split <;> [simp; split <;> simp])
    have e1 : ∀ S, ∏ y ∈ Finset.range c.nf, ((if y = z then [s] else if y = z' then [s'] else []).map fun s => occ S y s - densShift β e G ε y s).prod =
        (occ S z s - densShift β e G ε z s) * (occ S z' s' - densShift β e G ε z' s') := by
      intro S
      rw [Finset.prod_eq_mul z z' hzz (fun y _ hne => by rw [if_neg hne.1, if_neg hne.2]; rfl) (fun h => absurd (Finset.mem_range.2 hz) h)
        (fun h => absurd (Finset.mem_range.2 hz') h), if_pos rfl, if_neg (Ne.symm hzz), if_pos rfl]
      simp
    simp only [e1] at key
    rw [← key]
    unfold weightTwo
    rw [interacting_vertAt]
    congr 1
    refine Finset.prod_congr rfl fun y hy => ?_
    rw [if_neg hzz]
    by_cases h : y = z
    · subst h
      rw [if_pos rfl, if_pos rfl]
      exact one_pair hG0 hG hz hε h0 h1 (hr y) hs
    · rw [if_neg h, if_neg h]
      by_cases h' : y = z'
      · subst h'
        rw [if_pos rfl, if_pos rfl]
        exact one_pair hG0 hG hz' hε h0 h1 (hr y) hs'
      · rw [if_neg h', if_neg h', List.map_nil, List.append_nil]

/-- The average over the time of what does not depend on it. -/
theorem time_average (hβ : 0 < β) {x : List Pt} {f : ℝ → ℝ} {v : ℝ} (h : ∀ τ, 0 ≤ τ → τ < β → (∀ p ∈ x, p.2.2 ≠ τ) → f τ = v) :
    (1 / β) * ∫ τ in (0 : ℝ)..β, f τ = v := by
  have : ∫ τ in (0 : ℝ)..β, f τ = ∫ τ in (0 : ℝ)..β, v := by
    refine intervalIntegral.integral_congr_ae ?_
    have hfin : ({τ : ℝ | ∃ p ∈ x, p.2.2 = τ} ∪ {β}).Finite := by
      refine Set.Finite.union ?_ (Set.finite_singleton β)
      refine ((x.map fun p => p.2.2).toFinset.finite_toSet).subset ?_
      rintro τ ⟨p, hp, rfl⟩
      simp only [List.coe_toFinset, List.mem_map, Set.mem_setOf_eq]
      exact ⟨p, hp, rfl⟩
    have hae : ∀ᵐ τ : ℝ, τ ∉ ({τ : ℝ | ∃ p ∈ x, p.2.2 = τ} ∪ {β}) := by
      rw [MeasureTheory.ae_iff]
      simp only [not_not]
      exact hfin.measure_zero volume
    filter_upwards [hae] with τ hτ hm
    rw [Set.uIoc_of_le hβ.le] at hm
    rw [Set.mem_union, not_or] at hτ
    exact h τ hm.1.le (lt_of_le_of_ne hm.2 hτ.2) fun p hp he => hτ.1 ⟨p, hp, he⟩
  rw [this, intervalIntegral.integral_const, sub_zero, smul_eq_mul, ← mul_assoc, one_div, inv_mul_cancel₀ hβ.ne', one_mul]

/-- An expectation value. -/
theorem levels_expect {c : Ctx ℝ} (hβ : 0 < β) (hT : ∀ d ∈ c.tbl, DensityTerm c.nf ns d) (hG0 : LevelsG0 β c.nf ns e c.G0) (X : Finset (ℕ × ℕ) → ℝ)
    {w : ℝ → List Vert → ℝ}
    (h : ∀ (x : List Pt) (τ : ℝ), ValidPts β c.tbl x → x.Pairwise (fun p p' => p.2.2 ≠ p'.2.2) → 0 ≤ τ → τ < β → (∀ p ∈ x, p.2.2 ≠ τ) →
      w τ (x.map vertAt) = (∑ S ∈ states c.nf ns, X S * (x.map fun p => - fieldTerm S (c.tbl.getD p.1 default) p.2.1).prod *
        Real.exp (-β * levelEnergy e S)) / statesZ β c.nf ns (levelEnergy e)) (M : ℕ) :
    expect c β M (fun vs => (1 / β) * ∫ τ in (0 : ℝ)..β, w τ vs) = seriesMean β c.nf ns (levelEnergy e) (interaction c.tbl) M X := by
  unfold expect
  rw [levels_sum_factor (e := e) (ns := ns) hβ.le X (fun _ => 1) (fun x hx hd => by
    rw [mul_one]; exact time_average hβ (x := x) fun τ t0 t1 ht => h x τ hx hd t0 t1 ht)]
  have := levels_sum hβ.le hT hG0 (fun _ => 1) M
  simp only [mul_one, one_mul] at this ⊢
  rw [this, div_div_div_cancel_right₀ (statesZ_pos _ _ _ _).ne']
  rfl

end CTInt
