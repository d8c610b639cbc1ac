import Verif.Proofs.Ensemble
import Verif.Proofs.FlipBalance

/-!
# Moves of single vertices
-/

set_option linter.all false

namespace CTInt

open MeasureTheory Set

variable {K : Type} [RCLike K] [DecidableEq K]
variable {c : Ctx K} {beta : ℝ}

/-- Proposals for a single vertex that are as likely as the way back. -/
structure Rev (beta : ℝ) (tbl : List (VDef K)) (κ : Pt → Measure Pt) : Prop where
  prob : ∀ v, IsProbabilityMeasure (κ v)
  meas : ∀ {Z : Type} [MeasurableSpace Z] {p : Z → Pt} {g : Z × Pt → ENNReal}, Measurable p → Measurable g →
    Measurable fun z => ∫⁻ w, g (z, w) ∂κ (p z)
  type : ∀ v, ∀ᵐ w ∂κ v, w.1 = v.1
  sym : ∀ g : Pt × Pt → ENNReal, Measurable g →
    ∫⁻ v, ∫⁻ w, g (v, w) ∂κ v ∂pointMeasure beta tbl = ∫⁻ v, ∫⁻ w, g (w, v) ∂κ v ∂pointMeasure beta tbl

/-- The mean of `F` after an attempt to move vertex `i`. -/
noncomputable def moveOp (c : Ctx K) (κ : Pt → Measure Pt) (i : ℕ) (F : List Pt → ENNReal) (x : List Pt) : ENNReal :=
  ∫⁻ w, (accept c x (x.set i w) 1 * F (x.set i w) + (1 - accept c x (x.set i w) 1) * F x) ∂κ (x.getD i default)

/-- Several attempts. -/
noncomputable def moveOps (c : Ctx K) (κ : Pt → Measure Pt) : List ℕ → (List Pt → ENNReal) → List Pt → ENNReal
  | [], F => F
  | i :: l, F => moveOp c κ i (moveOps c κ l F)

/-- The mean over the vertices picked. -/
noncomputable def pickOp (c : Ctx K) (κ : Pt → Measure Pt) (k : ℕ) (F : List Pt → ENNReal) (x : List Pt) : ENNReal :=
  pickMean x.length (fun L => moveOps c κ L F x) [] (min k x.length)

section
variable {κ : Pt → Measure Pt}

theorem moveOp_measurable (hG : MeasurableG0 c.G0) (hκ : Rev beta c.tbl κ) (i : ℕ) {F : List Pt → ENNReal} (hF : Measurable F) :
    Measurable (moveOp c κ i F) := by
  have hy := measurable_set i
  have hx : Measurable fun z : List Pt × Pt => z.1 := measurable_fst
  have ha := measurable_accept (c := c) hG hx hy 1
  exact hκ.meas (g := fun z => accept c z.1 (z.1.set i z.2) 1 * F (z.1.set i z.2) + (1 - accept c z.1 (z.1.set i z.2) 1) * F z.1)
    (measurable_getD i) ((ha.mul (hF.comp hy)).add ((measurable_const.sub ha).mul (hF.comp hx)))

theorem moveOps_measurable (hG : MeasurableG0 c.G0) (hκ : Rev beta c.tbl κ) (l : List ℕ) {F : List Pt → ENNReal} (hF : Measurable F) :
    Measurable (moveOps c κ l F) := by
  induction l with
  | nil => exact hF
  | cons i l ih => exact moveOp_measurable hG hκ i ih

theorem set_insertNth {n : ℕ} (i : Fin (n + 1)) (v w : Pt) (x : Fin n → Pt) :
    (List.ofFn (i.insertNth (α := fun _ => Pt) v x)).set i w = List.ofFn (i.insertNth (α := fun _ => Pt) w x) := by
  refine List.ext_getElem (by simp) fun j h1 h2 => ?_
  rw [List.getElem_set]
  split
  · rename_i e
    subst e
    rw [List.getElem_ofFn]
    exact (Fin.insertNth_apply_same (α := fun _ => Pt) i w x).symm
  · rename_i e
    have hj : j < n + 1 := by simpa using h2
    rw [List.getElem_ofFn, List.getElem_ofFn]
    have hne : (⟨j, hj⟩ : Fin (n + 1)) ≠ i := fun q => e (by rw [← q])
    obtain ⟨k, hk⟩ := Fin.exists_succAbove_eq hne
    rw [← hk, Fin.insertNth_apply_succAbove, Fin.insertNth_apply_succAbove]

theorem getD_insertNth {n : ℕ} (i : Fin (n + 1)) (v : Pt) (x : Fin n → Pt) :
    (List.ofFn (i.insertNth (α := fun _ => Pt) v x)).getD i default = v := by
  rw [getD_ofFn, dif_pos i.2]
  simp

theorem stateProd_insertNth (tbl : List (VDef K)) {n : ℕ} (i : Fin (n + 1)) {v w : Pt} (h : v.1 = w.1) (x : Fin n → Pt) :
    stateProd tbl (List.ofFn (i.insertNth (α := fun _ => Pt) v x)) = stateProd tbl (List.ofFn (i.insertNth (α := fun _ => Pt) w x)) := by
  unfold stateProd
  rw [((ofFn_insertNth_perm i v x).map _).prod_eq, ((ofFn_insertNth_perm i w x).map _).prod_eq]
  simp only [List.map_append, List.map_cons, List.map_nil, h]

/-- Moving one vertex leaves the ensemble invariant, for every number of vertices. -/
theorem moveOp_stationary (hG : MeasurableG0 c.G0) (hκ : Rev beta c.tbl κ) {n i : ℕ} (hi : i < n) {F : List Pt → ENNReal}
    (hF : Measurable F) : term c beta n (moveOp c κ i F) = term c beta n F := by
  obtain ⟨n, rfl⟩ : ∃ m, n = m + 1 := ⟨n - 1, by omega⟩
  obtain ⟨i, rfl⟩ : ∃ j : Fin (n + 1), i = j := ⟨⟨i, hi⟩, rfl⟩
  obtain ⟨P, hP⟩ : ∃ P : Pt → (Fin n → Pt) → List Pt, P = fun v x => List.ofFn (i.insertNth (α := fun _ => Pt) v x) := ⟨_, rfl⟩
  have hPm : ∀ {Z : Type} [MeasurableSpace Z] {f : Z → Pt} {g : Z → Fin n → Pt}, Measurable f → Measurable g → Measurable fun z => P (f z) (g z) := by
    intro Z _ f g hf hg
    rw [hP]
    refine (measurable_ofFn (n + 1)).comp ?_
    have := (MeasurableEquiv.piFinSuccAbove (fun _ : Fin (n + 1) => Pt) i).symm.measurable.comp (hf.prodMk hg)
    exact this
  unfold term
  congr 1
  have hD : Measurable fun x : Fin (n + 1) → Pt => density c (List.ofFn x) * F (List.ofFn x) :=
    ((measurable_density hG).comp (measurable_ofFn (n + 1))).mul (hF.comp (measurable_ofFn (n + 1)))
  have hD' : Measurable fun x : Fin (n + 1) → Pt => density c (List.ofFn x) * moveOp c κ i F (List.ofFn x) :=
    ((measurable_density hG).comp (measurable_ofFn (n + 1))).mul ((moveOp_measurable hG hκ i hF).comp (measurable_ofFn (n + 1)))
  rw [lintegral_insertNth i hD, lintegral_insertNth i hD']
  have e1 : ∀ v x, moveOp c κ i F (List.ofFn (i.insertNth (α := fun _ => Pt) v x)) =
      ∫⁻ w, (accept c (P v x) (P w x) 1 * F (P w x) + (1 - accept c (P v x) (P w x) 1) * F (P v x)) ∂κ v := by
    intro v x
    unfold moveOp
    rw [getD_insertNth]
    simp only [set_insertNth, hP]
  have e0 : ∀ v x, List.ofFn (i.insertNth (α := fun _ => Pt) v x) = P v x := fun v x => by rw [hP]
  simp only [e1]
  simp only [e0]
  have hdm : ∀ v, density c v ≠ ⊤ := fun v => by rw [density_eq]; exact ENNReal.ofReal_ne_top
  -- accepted and rejected
  obtain ⟨A, hA⟩ : ∃ A : Pt × Pt → (Fin n → Pt) → ENNReal, A = fun z x => density c (P z.1 x) * accept c (P z.1 x) (P z.2 x) 1 := ⟨_, rfl⟩
  obtain ⟨R, hR⟩ : ∃ R : Pt × Pt → (Fin n → Pt) → ENNReal, R = fun z x => density c (P z.1 x) * (1 - accept c (P z.1 x) (P z.2 x) 1) := ⟨_, rfl⟩
  have mA : Measurable fun z : (Pt × Pt) × (Fin n → Pt) => A z.1 z.2 := by
    rw [hA]
    exact ((measurable_density hG).comp (hPm (measurable_fst.comp measurable_fst) measurable_snd)).mul
      (measurable_accept hG (hPm (measurable_fst.comp measurable_fst) measurable_snd) (hPm (measurable_snd.comp measurable_fst) measurable_snd) 1)
  have mR : Measurable fun z : (Pt × Pt) × (Fin n → Pt) => R z.1 z.2 := by
    rw [hR]
    exact ((measurable_density hG).comp (hPm (measurable_fst.comp measurable_fst) measurable_snd)).mul (measurable_const.sub
      (measurable_accept hG (hPm (measurable_fst.comp measurable_fst) measurable_snd) (hPm (measurable_snd.comp measurable_fst) measurable_snd) 1))
  have mF1 : Measurable fun z : (Pt × Pt) × (Fin n → Pt) => F (P z.1.1 z.2) := hF.comp (hPm (measurable_fst.comp measurable_fst) measurable_snd)
  have mF2 : Measurable fun z : (Pt × Pt) × (Fin n → Pt) => F (P z.1.2 z.2) := hF.comp (hPm (measurable_snd.comp measurable_fst) measurable_snd)
  have hAR : ∀ v w x, A (v, w) x + R (v, w) x = density c (P v x) := by
    intro v w x
    rw [hA, hR]
    simp only []
    rw [← mul_add, add_tsub_cancel_of_le (accept_le _ _ _), mul_one]
  have hflip : ∀ v w x, w.1 = v.1 → A (w, v) x = A (v, w) x := by
    intro v w x h
    rw [hA]
    simp only []
    rw [density_accept _ _ zero_le_one, density_accept _ _ zero_le_one, mul_one, mul_one, min_comm]
    rw [hP]
    simp only []
    rw [stateProd_insertNth c.tbl i h x]
  -- exchange of the integrals
  have swap : ∀ {H : (Pt × Pt) × (Fin n → Pt) → ENNReal}, Measurable H → ∀ v,
      ∫⁻ x, ∫⁻ w, H ((v, w), x) ∂κ v ∂tupleMeasure beta c.tbl n = ∫⁻ w, ∫⁻ x, H ((v, w), x) ∂tupleMeasure beta c.tbl n ∂κ v := by
    intro H hH v
    haveI := hκ.prob v
    refine lintegral_lintegral_swap (Measurable.aemeasurable ?_)
    exact hH.comp ((measurable_const.prodMk measurable_snd).prodMk measurable_fst)
  have l1 : ∀ v, ∫⁻ x, density c (P v x) * ∫⁻ w, (accept c (P v x) (P w x) 1 * F (P w x) + (1 - accept c (P v x) (P w x) 1) * F (P v x)) ∂κ v
        ∂tupleMeasure beta c.tbl n =
      (∫⁻ w, ∫⁻ x, A (v, w) x * F (P w x) ∂tupleMeasure beta c.tbl n ∂κ v) + ∫⁻ w, ∫⁻ x, R (v, w) x * F (P v x) ∂tupleMeasure beta c.tbl n ∂κ v := by
    intro v
    have m1 : Measurable fun w => ∫⁻ x, A (v, w) x * F (P w x) ∂tupleMeasure beta c.tbl n := by
      have : Measurable fun z : Pt × (Fin n → Pt) => A (v, z.1) z.2 * F (P z.1 z.2) :=
        (mA.mul mF2).comp ((measurable_const.prodMk measurable_fst).prodMk measurable_snd)
      exact this.lintegral_prod_right'
    rw [← lintegral_add_left m1]
    have e2 : ∀ w, (∫⁻ x, A (v, w) x * F (P w x) ∂tupleMeasure beta c.tbl n) + ∫⁻ x, R (v, w) x * F (P v x) ∂tupleMeasure beta c.tbl n =
        ∫⁻ x, (A (v, w) x * F (P w x) + R (v, w) x * F (P v x)) ∂tupleMeasure beta c.tbl n := by
      intro w
      have m2 : Measurable fun x => A (v, w) x * F (P w x) := (mA.mul mF2).comp (measurable_const.prodMk measurable_id)
      rw [lintegral_add_left m2]
    simp only [e2]
    rw [← swap (H := fun z => A z.1 z.2 * F (P z.1.2 z.2) + R z.1 z.2 * F (P z.1.1 z.2)) ((mA.mul mF2).add (mR.mul mF1)) v]
    refine lintegral_congr fun x => ?_
    rw [← lintegral_const_mul' _ _ (hdm _)]
    refine lintegral_congr fun w => ?_
    rw [hA, hR]
    simp only []
    ring
  have l2 : ∀ v, ∫⁻ x, density c (P v x) * F (P v x) ∂tupleMeasure beta c.tbl n =
      (∫⁻ w, ∫⁻ x, A (w, v) x * F (P v x) ∂tupleMeasure beta c.tbl n ∂κ v) + ∫⁻ w, ∫⁻ x, R (v, w) x * F (P v x) ∂tupleMeasure beta c.tbl n ∂κ v := by
    intro v
    haveI := hκ.prob v
    have m1 : Measurable fun w => ∫⁻ x, A (w, v) x * F (P v x) ∂tupleMeasure beta c.tbl n := by
      have : Measurable fun z : Pt × (Fin n → Pt) => A (z.1, v) z.2 * F (P v z.2) :=
        (mA.mul mF2).comp ((measurable_fst.prodMk measurable_const).prodMk measurable_snd)
      exact this.lintegral_prod_right'
    rw [← lintegral_add_left m1]
    have e2 : ∀ᵐ w ∂κ v, (∫⁻ x, A (w, v) x * F (P v x) ∂tupleMeasure beta c.tbl n) + ∫⁻ x, R (v, w) x * F (P v x) ∂tupleMeasure beta c.tbl n =
        ∫⁻ x, density c (P v x) * F (P v x) ∂tupleMeasure beta c.tbl n := by
      filter_upwards [hκ.type v] with w hw
      have m2 : Measurable fun x => A (w, v) x * F (P v x) := (mA.mul mF2).comp (measurable_const.prodMk measurable_id)
      rw [← lintegral_add_left m2]
      refine lintegral_congr fun x => ?_
      rw [hflip v w x hw, ← add_mul, hAR]
    rw [lintegral_congr_ae e2, lintegral_const, measure_univ, mul_one]
  simp only [l1, l2]
  have mAF : Measurable fun z : Pt × Pt => ∫⁻ x, A z x * F (P z.2 x) ∂tupleMeasure beta c.tbl n := (mA.mul mF2).lintegral_prod_right'
  have mv1 : Measurable fun v => ∫⁻ w, ∫⁻ x, A (v, w) x * F (P w x) ∂tupleMeasure beta c.tbl n ∂κ v :=
    hκ.meas (g := fun z => ∫⁻ x, A z x * F (P z.2 x) ∂tupleMeasure beta c.tbl n) measurable_id mAF
  have mv2 : Measurable fun v => ∫⁻ w, ∫⁻ x, A (w, v) x * F (P v x) ∂tupleMeasure beta c.tbl n ∂κ v :=
    hκ.meas (g := fun z => ∫⁻ x, A (z.2, z.1) x * F (P z.1 x) ∂tupleMeasure beta c.tbl n) measurable_id (mAF.comp measurable_swap)
  rw [lintegral_add_left mv1, lintegral_add_left mv2]
  congr 1
  exact hκ.sym (fun z => ∫⁻ x, A z x * F (P z.2 x) ∂tupleMeasure beta c.tbl n) mAF

theorem moveOps_stationary (hG : MeasurableG0 c.G0) (hκ : Rev beta c.tbl κ) {n : ℕ} {l : List ℕ} (hl : ∀ i ∈ l, i < n) {F : List Pt → ENNReal}
    (hF : Measurable F) : term c beta n (moveOps c κ l F) = term c beta n F := by
  induction l with
  | nil => rfl
  | cons i l ih =>
    unfold moveOps
    rw [moveOp_stationary hG hκ (hl i (by simp)) (moveOps_measurable hG hκ l hF), ih fun j hj => hl j (by simp [hj])]

/-! ## The mean over the selections -/

theorem term_congr {n : ℕ} {F G : List Pt → ENNReal} (h : ∀ x : List Pt, x.length = n → F x = G x) : term c beta n F = term c beta n G := by
  unfold term
  congr 1
  refine lintegral_congr fun x => ?_
  rw [h _ (by simp)]

theorem pickMean_measurable {N : ℕ} {Z : Type} [MeasurableSpace Z] {G : List ℕ → Z → ENNReal} (hG : ∀ L, Measurable (G L)) (l : List ℕ) (n : ℕ) :
    Measurable fun z => pickMean N (fun L => G L z) l n := by
  induction n generalizing l with
  | zero => exact hG l
  | succ n ih =>
    unfold pickMean
    exact Finset.measurable_sum _ fun k _ => (ih (l ++ [k])).const_mul _

theorem pickMean_term (hG0 : MeasurableG0 c.G0) {N : ℕ} {G : List ℕ → List Pt → ENNReal} {T : ENNReal} (hm : ∀ L, Measurable (G L))
    (hF : ∀ L : List ℕ, L.Nodup → (∀ x ∈ L, x < N) → term c beta N (G L) = T) {l : List ℕ} {n : ℕ} (hnd : l.Nodup)
    (hlt : ∀ x ∈ l, x < N) (hn : l.length + n ≤ N) : term c beta N (fun x => pickMean N (fun L => G L x) l n) = T := by
  induction n generalizing l with
  | zero => exact hF l hnd hlt
  | succ n ih =>
    have hX := measurable_ofFn N
    have : ∀ k ∈ Finset.range N \ l.toFinset, term c beta N (fun x => pickMean N (fun L => G L x) (l ++ [k]) n) = T := by
      intro k hk
      rw [Finset.mem_sdiff, Finset.mem_range, List.mem_toFinset] at hk
      refine ih ?_ ?_ ?_
      · rw [List.nodup_append]
        refine ⟨hnd, by simp, ?_⟩
        intro x hx y hy e
        rw [List.mem_singleton] at hy
        exact hk.2 (by rw [← hy, ← e]; exact hx)
      · intro x hx
        rw [List.mem_append, List.mem_singleton] at hx
        rcases hx with hx | rfl
        · exact hlt x hx
        · exact hk.1
      · rw [List.length_append, List.length_singleton]; omega
    have e : term c beta N (fun x => pickMean N (fun L => G L x) l (n + 1)) =
        ∑ k ∈ Finset.range N \ l.toFinset, ENNReal.ofReal (1 / ((N - l.length : ℕ) : ℝ)) * term c beta N (fun x => pickMean N (fun L => G L x) (l ++ [k]) n) := by
      unfold term
      have e1 : ∀ x : Fin N → Pt, density c (List.ofFn x) * pickMean N (fun L => G L (List.ofFn x)) l (n + 1) =
          ∑ k ∈ Finset.range N \ l.toFinset, ENNReal.ofReal (1 / ((N - l.length : ℕ) : ℝ)) *
            (density c (List.ofFn x) * pickMean N (fun L => G L (List.ofFn x)) (l ++ [k]) n) := by
        intro x
        conv_lhs => unfold pickMean
        rw [Finset.mul_sum]
        exact Finset.sum_congr rfl fun k _ => by ring
      simp only [e1]
      rw [lintegral_finset_sum]
      · rw [Finset.mul_sum]
        refine Finset.sum_congr rfl fun k _ => ?_
        rw [lintegral_const_mul' _ _ ENNReal.ofReal_ne_top]
        ring
      · intro k _
        exact (((measurable_density hG0).comp hX).mul ((pickMean_measurable hm (l ++ [k]) n).comp hX)).const_mul _
    rw [e, Finset.sum_congr rfl fun k hk => by rw [this k hk], ← Finset.sum_mul, sum_inv, one_mul]
    · rw [Finset.card_sdiff_of_subset, Finset.card_range, List.toFinset_card_of_nodup hnd]
      intro x hx
      rw [Finset.mem_range]
      exact hlt x (List.mem_toFinset.1 hx)
    · omega

/-- Two lists that differ by a renumbering of the positions. -/
structure Renum (N : ℕ) (σ ρ : ℕ → ℕ) (x y : List Pt) : Prop where
  lx : x.length = N
  ly : y.length = N
  fwd : ∀ i < N, σ i < N ∧ ρ (σ i) = i
  bwd : ∀ i < N, ρ i < N ∧ σ (ρ i) = i
  get : ∀ i < N, y.getD (σ i) default = x.getD i default

theorem Renum.perm {N : ℕ} {σ ρ : ℕ → ℕ} {x y : List Pt} (h : Renum N σ ρ x y) : x.Perm y := by
  have e : ∀ z : List Pt, z.length = N → z = (List.range N).map fun j => z.getD j default := by
    intro z hz
    refine List.ext_getElem (by simp [hz]) fun k h1 h2 => ?_
    rw [List.getElem_map, List.getElem_range, List.getD_eq_getElem _ _ h1]
  have hx : x = ((List.range N).map σ).map fun j => y.getD j default := by
    rw [e x h.lx, List.map_map]
    refine List.map_congr_left fun i hi => ?_
    exact (h.get i (List.mem_range.1 hi)).symm
  have hp : ((List.range N).map σ).Perm (List.range N) := by
    have hnd : ((List.range N).map σ).Nodup := by
      refine List.Nodup.map_on ?_ List.nodup_range
      intro i hi j hj q
      rw [List.mem_range] at hi hj
      rw [← (h.fwd i hi).2, q, (h.fwd j hj).2]
    refine (List.perm_ext_iff_of_nodup hnd List.nodup_range).2 fun j => ?_
    rw [List.mem_map, List.mem_range]
    constructor
    · rintro ⟨i, hi, rfl⟩
      exact (h.fwd i (List.mem_range.1 hi)).1
    · intro hj
      exact ⟨ρ j, List.mem_range.2 (h.bwd j hj).1, (h.bwd j hj).2⟩
  rw [hx]
  conv_rhs => rw [e y h.ly]
  exact hp.map _

theorem Renum.set {N : ℕ} {σ ρ : ℕ → ℕ} {x y : List Pt} (h : Renum N σ ρ x y) {i : ℕ} (hi : i < N) (w : Pt) :
    Renum N σ ρ (x.set i w) (y.set (σ i) w) := by
  refine ⟨by simp [h.lx], by simp [h.ly], h.fwd, h.bwd, fun j hj => ?_⟩
  have hx := h.lx
  have hy := h.ly
  have hg := h.get j hj
  have h1 := (h.fwd j hj).1
  rw [List.getD_eq_getElem _ _ (by simpa [hy] using h1), List.getD_eq_getElem _ _ (by simpa [hx] using hj)]
  rw [List.getD_eq_getElem _ _ (by omega), List.getD_eq_getElem _ _ (by omega)] at hg
  rw [List.getElem_set, List.getElem_set]
  by_cases e : i = j
  · subst e; simp
  · rw [if_neg e, if_neg fun q => e (by rw [← (h.fwd i hi).2, q, (h.fwd j hj).2]), hg]

theorem Renum.exists {x y : List Pt} (h : x.Perm y) : ∃ σ ρ, Renum x.length σ ρ x y := by
  obtain ⟨σ, hσ⟩ := perm_equiv h
  have hl := h.length_eq
  refine ⟨fun i => if q : i < x.length then σ ⟨i, q⟩ else 0, fun i => if q : i < y.length then σ.symm ⟨i, q⟩ else 0, rfl, hl.symm, ?_, ?_, ?_⟩
  · intro i hi
    simp only [dif_pos hi]
    refine ⟨lt_of_lt_of_eq (σ ⟨i, hi⟩).2 hl.symm, ?_⟩
    rw [dif_pos (σ ⟨i, hi⟩).2]
    simp
  · intro i hi
    have hi' : i < y.length := by omega
    simp only [dif_pos hi']
    refine ⟨(σ.symm ⟨i, hi'⟩).2, ?_⟩
    rw [dif_pos (σ.symm ⟨i, hi'⟩).2]
    simp
  · intro i hi
    simp only [dif_pos hi]
    have := hσ ⟨i, hi⟩
    rw [List.getD_eq_getElem _ _ (σ ⟨i, hi⟩).2, List.getD_eq_getElem _ _ hi]
    exact this

theorem moveOps_renum {N : ℕ} {σ ρ : ℕ → ℕ} {x y : List Pt} (h : Renum N σ ρ x y) {F : List Pt → ENNReal}
    (hF : ∀ x y : List Pt, x.Perm y → F x = F y) {l : List ℕ} (hl : ∀ i ∈ l, i < N) :
    moveOps c κ l F x = moveOps c κ (l.map σ) F y := by
  induction l generalizing x y with
  | nil => exact hF _ _ h.perm
  | cons i l ih =>
    have hi := hl i (by simp)
    have hl' : ∀ j ∈ l, j < N := fun j hj => hl j (by simp [hj])
    rw [List.map_cons]
    unfold moveOps moveOp
    rw [h.get i hi]
    refine lintegral_congr fun w => ?_
    rw [ih (h.set hi w) hl', ih h hl', accept_perm h.perm (h.set hi w).perm]

theorem pickMean_renum {N : ℕ} {σ ρ : ℕ → ℕ} {x y : List Pt} (h : Renum N σ ρ x y) {F G : List ℕ → ENNReal}
    (hFG : ∀ L : List ℕ, (∀ i ∈ L, i < N) → F L = G (L.map σ)) {l : List ℕ} (hl : ∀ i ∈ l, i < N) (n : ℕ) :
    pickMean N F l n = pickMean N G (l.map σ) n := by
  induction n generalizing l with
  | zero => exact hFG l hl
  | succ n ih =>
    unfold pickMean
    refine Finset.sum_nbij' σ ρ ?_ ?_ ?_ ?_ ?_
    · intro k hk
      rw [Finset.mem_sdiff, Finset.mem_range, List.mem_toFinset] at hk ⊢
      refine ⟨(h.fwd k hk.1).1, fun q => hk.2 ?_⟩
      obtain ⟨j, hj, e⟩ := List.mem_map.1 q
      rw [← (h.fwd k hk.1).2, ← e, (h.fwd j (hl j hj)).2]
      exact hj
    · intro k hk
      rw [Finset.mem_sdiff, Finset.mem_range, List.mem_toFinset] at hk ⊢
      refine ⟨(h.bwd k hk.1).1, fun q => hk.2 ?_⟩
      exact List.mem_map.2 ⟨_, q, (h.bwd k hk.1).2⟩
    · intro k hk
      rw [Finset.mem_sdiff, Finset.mem_range] at hk
      exact (h.fwd k hk.1).2
    · intro k hk
      rw [Finset.mem_sdiff, Finset.mem_range] at hk
      exact (h.bwd k hk.1).2
    · intro k hk
      rw [Finset.mem_sdiff, Finset.mem_range] at hk
      rw [List.length_map, ih (l := l ++ [k]), List.map_append]
      · rfl
      · intro i hi
        rw [List.mem_append, List.mem_singleton] at hi
        rcases hi with hi | rfl
        · exact hl i hi
        · exact hk.1

theorem pickOp_nice (hG : MeasurableG0 c.G0) (hκ : Rev beta c.tbl κ) (k : ℕ) {F : List Pt → ENNReal} (hF : Nice F) : Nice (pickOp c κ k F) := by
  constructor
  · refine measurable_of_length' fun n => ?_
    unfold pickOp
    simp only [List.length_ofFn]
    exact (pickMean_measurable (fun L => moveOps_measurable hG hκ L hF.meas) [] (min k n)).comp (measurable_ofFn n)
  · intro x y h
    obtain ⟨σ, ρ, hr⟩ := Renum.exists h
    unfold pickOp
    rw [← h.length_eq]
    exact pickMean_renum hr (fun L hL => moveOps_renum hr hF.sym hL) (by simp) _

/-- Moving some of the vertices, chosen at random, leaves the ensemble invariant. -/
theorem pickOp_stationary (hG : MeasurableG0 c.G0) (hκ : Rev beta c.tbl κ) (k M : ℕ) {F : List Pt → ENNReal} (hF : Measurable F) :
    ensemble c beta M (pickOp c κ k F) = ensemble c beta M F := by
  rw [ensemble_term, ensemble_term]
  refine Finset.sum_congr rfl fun n _ => ?_
  have e : term c beta n (pickOp c κ k F) = term c beta n fun x => pickMean n (fun L => moveOps c κ L F x) [] (min k n) :=
    term_congr fun x hx => by unfold pickOp; rw [hx]
  rw [e]
  exact pickMean_term hG (fun L => moveOps_measurable hG hκ L hF) (fun L _ hL => moveOps_stationary hG hκ hL hF) List.nodup_nil (by simp)
    (by simp)

end

end CTInt
