import Verif.Model.Observables
import Verif.Proofs.Times
import Verif.Props.Measure
import Verif.Props.Density

/-!
# Estimators as ratios of determinants
-/

set_option linter.all false

open Matrix

namespace CTInt

section Field
variable {K : Type} [Field K] [DecidableEq K]

/-- Cramer's rule. -/
theorem IsInvOf.cramer {X : DMat K} {n : ℕ} {g : ℕ → ℕ → K} (h : IsInvOf X n g) {q : ℕ} (hq : q < n) (b : ℕ → K) :
    ∑ p ∈ Finset.range n, X.val q p * b p = detN n (withCol g q b) / detN n g := by
  have h1 := detN_replace_row h.transpose hq b
  rw [detN_transpose n g] at h1
  have h2 : detN n (fun i j => if i = q then b j else g j i) = detN n (withCol g q b) := by
    rw [← detN_transpose]; rfl
  rw [h2] at h1
  rw [eq_div_iff h.det_ne_zero, h1]
  congr 1
  exact Finset.sum_congr rfl fun p _ => mul_comm _ _

/-- One more row and column. -/
theorem IsInvOf.border {X : DMat K} {n : ℕ} {g : ℕ → ℕ → K} (h : IsInvOf X n g) :
    g n n - ∑ q ∈ Finset.range n, g n q * ∑ p ∈ Finset.range n, X.val q p * g p n = detN (n + 1) g / detN n g := by
  have hb : UpBlocks n 1 g ⟨n, 1, fun i j => g i (n + j)⟩ ⟨1, n, fun i j => g (n + i) j⟩ ⟨1, 1, fun i j => g (n + i) (n + j)⟩ :=
    ⟨rfl, rfl, rfl, rfl, rfl, rfl, fun _ _ _ _ => rfl, fun _ _ _ _ => rfl, fun _ _ _ _ => rfl⟩
  rw [← detN_up hb h, DMat.det_eq (n := 1) rfl, Matrix.det_fin_one]
  simp only [DMat.mat, toM_apply, DMat.sub_val, DMat.mul_val, DMat.mul_cols, h.2.1, Fin.val_zero, Nat.add_zero]
  congr 1
  simp only [Finset.sum_mul, Finset.mul_sum]
  rw [Finset.sum_comm]
  refine Finset.sum_congr rfl fun p _ => Finset.sum_congr rfl fun q _ => by ring

/-- Two more rows and columns. -/
theorem IsInvOf.border2 {X : DMat K} {n : ℕ} {g : ℕ → ℕ → K} (h : IsInvOf X n g) :
    let S (a b : ℕ) := g (n + a) (n + b) - ∑ q ∈ Finset.range n, g (n + a) q * ∑ p ∈ Finset.range n, X.val q p * g p (n + b)
    S 0 0 * S 1 1 - S 0 1 * S 1 0 = detN (n + 2) g / detN n g := by
  intro S
  have hb : UpBlocks n 2 g ⟨n, 2, fun i j => g i (n + j)⟩ ⟨2, n, fun i j => g (n + i) j⟩ ⟨2, 2, fun i j => g (n + i) (n + j)⟩ :=
    ⟨rfl, rfl, rfl, rfl, rfl, rfl, fun _ _ _ _ => rfl, fun _ _ _ _ => rfl, fun _ _ _ _ => rfl⟩
  rw [← detN_up hb h, DMat.det_eq (n := 2) rfl, Matrix.det_fin_two]
  have e : ∀ a b : Fin 2, ((⟨2, 2, fun i j => g (n + i) (n + j)⟩ : DMat K).sub (((⟨2, n, fun i j => g (n + i) j⟩ : DMat K).mul X).mul
      ⟨n, 2, fun i j => g i (n + j)⟩)).mat 2 2 a b = S a b := by
    intro a b
    simp only [DMat.mat, toM_apply, DMat.sub_val, DMat.mul_val, DMat.mul_cols, h.2.1, S]
    congr 1
    simp only [Finset.sum_mul, Finset.mul_sum]
    rw [Finset.sum_comm]
    refine Finset.sum_congr rfl fun p _ => Finset.sum_congr rfl fun q _ => by ring
  simp only [e]
  rfl

end Field

variable {K : Type} [RCLike K] [DecidableEq K]

/-! ## Order of the operator pairs -/

theorem perm_getD {l l' : List (OpRow K)} (h : l.Perm l') :
    ∃ σ : Fin l.length ≃ Fin l'.length, ∀ i : Fin l.length, l'.getD (σ i) default = l.getD i default := by
  obtain ⟨σ, hσ⟩ := perm_equiv h
  refine ⟨σ, fun i => ?_⟩
  have := hσ i
  rw [List.get_eq_getElem, List.get_eq_getElem] at this
  rw [List.getD_eq_getElem _ _ (σ i).2, List.getD_eq_getElem _ _ i.2]
  exact this

theorem otherCreator_perm {G0 : Op → Op → K} {G : ℝ → ℕ → ℕ → ℕ → K} {z B : ℕ} {t : ℝ} {l l' : List (OpRow K)}
    {σ : Fin l.length ≃ Fin l'.length} (hσ : ∀ i : Fin l.length, l'.getD (σ i) default = l.getD i default) (q : Fin l.length) :
    detN l'.length (otherCreator G0 G z l' (σ q) B t) = detN l.length (otherCreator G0 G z l q B t) := by
  unfold detN
  rw [← Matrix.det_submatrix_equiv_self σ]
  congr 1
  ext i j
  rw [Matrix.submatrix_apply, toM_apply, toM_apply]
  unfold otherCreator withCol rowG specG
  simp only [hσ]
  by_cases hj : j = q
  · subst hj; simp
  · rw [if_neg (fun h => hj (σ.injective (Fin.ext h))), if_neg (fun h => hj (Fin.ext h))]
    congr 1
    by_cases hij : i = j
    · simp [hij]
    · rw [if_neg (fun h => hij (σ.injective (Fin.ext h))), if_neg (fun h => hij (Fin.ext h))]

/-- The estimator does not depend on the order in which the pairs are listed. -/
theorem selfEnergy_perm {β : ℝ} {G0 : Op → Op → K} {G : ℝ → ℕ → ℕ → ℕ → K} {z : ℕ} {l l' : List (OpRow K)} (h : l.Perm l')
    (sign : K) (shifts : List ℝ) (ρ : ℝ → ℂ) (c B : ℕ) :
    selfEnergy β G0 G z l sign shifts ρ c B = selfEnergy β G0 G z l' sign shifts ρ c B := by
  obtain ⟨σ, hσ⟩ := perm_getD h
  unfold selfEnergy
  congr 2
  refine List.map_congr_left fun t _ => ?_
  rw [← detG_perm G0 h]
  rw [Finset.sum_range, Finset.sum_range]
  refine Fintype.sum_equiv σ _ _ fun q => ?_
  rw [hσ, otherCreator_perm hσ]

theorem extraPair_perm {G0 : Op → Op → K} {G : ℝ → ℕ → ℕ → ℕ → K} {z : ℕ} {l l' : List (OpRow K)} (h : l.Perm l')
    (ε τ : ℝ) (s s2 : ℕ) : densityOf G0 G z l ε τ s s2 = densityOf G0 G z l' ε τ s s2 := by
  unfold densityOf
  rw [detG_perm G0 h]
  congr 1
  -- the added pair as a pair without a place in the list
  let A : Option (OpRow K) → Option (OpRow K) → K := fun a b =>
    match a, b with
    | some a, some b => G0 a.an b.cr
    | some a, none => G (a.an.time - τ) z a.an.site s
    | none, some b => G (τ - b.cr.time) z s2 b.cr.site
    | none, none => G ε z s2 s
  let D : Option (OpRow K) → K := fun a => match a with | some a => - a.al | none => 0
  have key : ∀ l : List (OpRow K), detN (l.length + 1) (extraPair G0 G z l ε τ s s2) =
      detN (l.map some ++ [none]).length (fun i j => (if i = j then D ((l.map some ++ [none]).getD j default) else 0) +
        A ((l.map some ++ [none]).getD i default) ((l.map some ++ [none]).getD j default)) := by
    intro l
    have hl : (l.map some ++ [none]).length = l.length + 1 := by simp
    rw [hl]
    have h1 : ∀ i, i < l.length → (l.map some ++ [none]).getD i default = some (l.getD i default) := by
      intro i hi
      rw [List.getD_append _ _ _ _ (by simpa using hi), List.getD_eq_getElem _ _ (by simpa using hi),
        List.getD_eq_getElem _ _ hi, List.getElem_map]
    have h2 : (l.map some ++ [none]).getD l.length default = none := by
      rw [List.getD_append_right _ _ _ _ (by simp)]
      simp
    refine detN_congr fun i hi j hj => ?_
    unfold extraPair
    by_cases h3 : i < l.length
    · by_cases h4 : j < l.length
      · rw [if_pos h3, if_pos h4, h1 i h3, h1 j h4]
        unfold rowG specG
        simp only [A, D]
        split_ifs <;> ring
      · have : j = l.length := by omega
        subst this
        rw [if_pos h3, if_neg h4, h1 i h3, h2, if_neg (by omega)]
        simp [A]
    · have : i = l.length := by omega
      subst this
      by_cases h4 : j < l.length
      · rw [if_neg h3, if_pos h4, h1 j h4, h2, if_neg (by omega)]
        simp [A]
      · have : j = l.length := by omega
        subst this
        rw [if_neg h3, if_neg h4, h2, if_pos rfl]
        simp [A, D]
  rw [key l, key l']
  exact detN_list_perm D A ((h.map some).append_right _)

/-! ## The estimators of the code -/

/-- What the matrices and operator lists of a measurement are. -/
structure MeasRows (m : MeasIn K) (G0 : Op → Op → K) (L : ℕ → List (OpRow K)) : Prop where
  cr : ∀ z < m.nf, m.cr z = (L z).map OpRow.cr
  an : ∀ z < m.nf, m.an z = (L z).map OpRow.an
  inv : ∀ z < m.nf, IsInvOf (m.M z) (L z).length (rowG G0 (L z))

theorem getD_map_row {L : List (OpRow K)} (f : OpRow K → Op) {q : ℕ} (hq : q < L.length) :
    (L.map f).getD q default = f (L.getD q default) := by
  rw [List.getD_eq_getElem _ _ (by simpa using hq), List.getElem_map, List.getD_eq_getElem _ _ hq]

theorem improved_ratio {m : MeasIn K} {G0 : Op → Op → K} {L : ℕ → List (OpRow K)} (h : MeasRows m G0 L)
    (G : ℝ → ℕ → ℕ → ℕ → K) {z : ℕ} (hz : z < m.nf) {q : ℕ} (hq : q < (L z).length) (B : ℕ) (t : ℝ) :
    m.improved G z q B t = detN (L z).length (otherCreator G0 G z (L z) q B t) / detN (L z).length (rowG G0 (L z)) := by
  unfold MeasIn.improved otherCreator
  rw [← (h.inv z hz).cramer hq, h.cr z hz, h.an z hz, List.length_map]
  refine Finset.sum_congr rfl fun p hp => ?_
  rw [getD_map_row _ (Finset.mem_range.1 hp)]

theorem estimator_ratio {m : MeasIn K} {G0 : Op → Op → K} {L : ℕ → List (OpRow K)} (h : MeasRows m G0 L)
    (G : ℝ → ℕ → ℕ → ℕ → K) {z : ℕ} (hz : z < m.nf) (shifts : List ℝ) (ρ : ℝ → ℂ) (c B : ℕ) :
    m.estimator G shifts ρ z c B = selfEnergy m.beta G0 G z (L z) m.sign shifts ρ c B := by
  unfold MeasIn.estimator selfEnergy
  congr 2
  refine List.map_congr_left fun t _ => ?_
  have hl : (m.cr z).length = (L z).length := by rw [h.cr z hz, List.length_map]
  rw [hl]
  refine Finset.sum_congr rfl fun q hq => ?_
  have hq := Finset.mem_range.1 hq
  rw [improved_ratio h G hz hq, h.cr z hz, getD_map_row _ hq]

theorem rho_ratio {m : MeasIn K} {G0 : Op → Op → K} {L : ℕ → List (OpRow K)} (h : MeasRows m G0 L)
    (G : ℝ → ℕ → ℕ → ℕ → K) {z : ℕ} (hz : z < m.nf) (τ : ℝ) (s s2 : ℕ) :
    m.rho G τ z s s2 = densityOf G0 G z (L z) (-m.beta * 1e-10) τ s s2 := by
  have hI : IsInvOf (m.M z) (L z).length (extraPair G0 G z (L z) (-m.beta * 1e-10) τ s s2) :=
    (h.inv z hz).congr fun i hi j hj => by unfold extraPair; rw [if_pos hi, if_pos hj]
  have hd : detN (L z).length (rowG G0 (L z)) = detN (L z).length (extraPair G0 G z (L z) (-m.beta * 1e-10) τ s s2) :=
    detN_congr fun i hi j hj => by unfold extraPair; rw [if_pos hi, if_pos hj]
  unfold densityOf MeasIn.rho
  rw [hd, ← hI.border]
  have hl : (m.cr z).length = (L z).length := by rw [h.cr z hz, List.length_map]
  rw [hl]
  congr 1
  · unfold extraPair; rw [if_neg (lt_irrefl _), if_neg (lt_irrefl _)]
  · refine Finset.sum_congr rfl fun q hq => ?_
    have hq := Finset.mem_range.1 hq
    rw [h.cr z hz, getD_map_row _ hq]
    congr 1
    · unfold extraPair; rw [if_neg (lt_irrefl _), if_pos hq]
    · refine Finset.sum_congr rfl fun p hp => ?_
      have hp := Finset.mem_range.1 hp
      rw [h.an z hz, getD_map_row _ hp]
      unfold extraPair
      rw [if_pos hp, if_neg (lt_irrefl _)]

/-- Wick's theorem for two more pairs on different sites. -/
theorem wick_ratio {X : DMat K} {G0 : Op → Op → K} {l : List (OpRow K)} (hX : IsInvOf X l.length (rowG G0 l))
    (G : ℝ → ℕ → ℕ → ℕ → K) (z : ℕ) (ε τ : ℝ) (i j : ℕ) :
    densityOf G0 G z l ε τ i i * densityOf G0 G z l ε τ j j - densityOf G0 G z l ε τ i j * densityOf G0 G z l ε τ j i =
      detN (l.length + 2) (twoPairs G0 G z l ε τ i j) / detN l.length (rowG G0 l) := by
  have hI : IsInvOf X l.length (twoPairs G0 G z l ε τ i j) :=
    hX.congr fun a ha b hb => by simp only [twoPairs]; rw [if_pos ha, if_pos hb]
  have hd : detN l.length (rowG G0 l) = detN l.length (twoPairs G0 G z l ε τ i j) :=
    detN_congr fun a ha b hb => by simp only [twoPairs]; rw [if_pos ha, if_pos hb]
  have key : ∀ s s2, densityOf G0 G z l ε τ s s2 = G ε z s2 s - ∑ q ∈ Finset.range l.length,
      G (τ - (l.getD q default).cr.time) z s2 (l.getD q default).cr.site * ∑ p ∈ Finset.range l.length, X.val q p *
        G ((l.getD p default).an.time - τ) z (l.getD p default).an.site s := by
    intro s s2
    have hI : IsInvOf X l.length (extraPair G0 G z l ε τ s s2) :=
      hX.congr fun a ha b hb => by unfold extraPair; rw [if_pos ha, if_pos hb]
    have hd : detN l.length (rowG G0 l) = detN l.length (extraPair G0 G z l ε τ s s2) :=
      detN_congr fun a ha b hb => by unfold extraPair; rw [if_pos ha, if_pos hb]
    unfold densityOf
    rw [hd, ← hI.border]
    congr 1
    · unfold extraPair; rw [if_neg (lt_irrefl _), if_neg (lt_irrefl _)]
    · refine Finset.sum_congr rfl fun q hq => ?_
      have hq := Finset.mem_range.1 hq
      congr 1
      · unfold extraPair; rw [if_neg (lt_irrefl _), if_pos hq]
      · refine Finset.sum_congr rfl fun p hp => ?_
        have hp := Finset.mem_range.1 hp
        unfold extraPair
        rw [if_pos hp, if_neg (lt_irrefl _)]
  have e : ∀ a b, (twoPairs G0 G z l ε τ i j (l.length + a) (l.length + b) - ∑ q ∈ Finset.range l.length,
      twoPairs G0 G z l ε τ i j (l.length + a) q * ∑ p ∈ Finset.range l.length, X.val q p *
        twoPairs G0 G z l ε τ i j p (l.length + b)) =
      densityOf G0 G z l ε τ (if b = 0 then i else j) (if a = 0 then i else j) := by
    intro a b
    have e1 : ∀ k, (if l.length + k = l.length then i else j) = if k = 0 then i else j := by
      intro k; by_cases hk : k = 0 <;> simp [hk]
    rw [key]
    congr 1
    · simp only [twoPairs]; rw [if_neg (by omega), if_neg (by omega), e1, e1]
    · refine Finset.sum_congr rfl fun q hq => ?_
      have hq := Finset.mem_range.1 hq
      congr 1
      · simp only [twoPairs]; rw [if_neg (by omega), if_pos hq, e1]
      · refine Finset.sum_congr rfl fun p hp => ?_
        have hp := Finset.mem_range.1 hp
        simp only [twoPairs]
        rw [if_pos hp, if_neg (by omega), e1]
  have := hI.border2
  simp only [e] at this
  rw [hd, ← this]
  simp only [if_true, one_ne_zero, if_false]
  ring

/-! ## Vertices per type -/

theorem countTypes_spec {n : ℕ} {vs : List Vert} (h : ∀ v ∈ vs, v.type < n) :
    ∃ l, countTypes n vs = .ok l ∧ l.length = n ∧ ∀ t < n, l.getD t 0 = ((vs.countP fun v => decide (v.type = t) : ℕ) : ℝ) := by
  have key : ∀ (vs : List Vert) (l0 : List ℝ), l0.length = n → (∀ v ∈ vs, v.type < n) →
      ∃ l, Res.foldl (fun (l : List ℝ) (v : Vert) => do
        Res.assert (v.type < n)
        pure (l.modify v.type (· + 1))) l0 vs = .ok l ∧ l.length = n ∧
        ∀ t < n, l.getD t 0 = l0.getD t 0 + ((vs.countP fun v => decide (v.type = t) : ℕ) : ℝ) := by
    intro vs
    induction vs with
    | nil => intro l0 hl _; exact ⟨l0, rfl, hl, by simp⟩
    | cons v vs ih =>
      intro l0 hl hv
      obtain ⟨l, e, h1, h2⟩ := ih (l0.modify v.type (· + 1)) (by rw [List.length_modify]; exact hl)
        fun w hw => hv w (List.mem_cons_of_mem _ hw)
      refine ⟨l, ?_, h1, fun t ht => ?_⟩
      · rw [Res.foldl_cons, Res.assert_true (hv v (by simp)), Res.bind_ok]
        exact e
      · rw [h2 t ht, List.countP_cons, List.getD_eq_getElem _ _ (by rw [List.length_modify, hl]; exact ht),
          List.getElem_modify, List.getD_eq_getElem _ _ (by rw [hl]; exact ht)]
        by_cases hvt : v.type = t
        · simp [hvt]; ring
        · simp [hvt]
  obtain ⟨l, e, h1, h2⟩ := key vs (List.replicate n 0) (by simp) h
  refine ⟨l, e, h1, fun t ht => ?_⟩
  rw [h2 t ht]
  simp [List.getD, ht]

end CTInt
