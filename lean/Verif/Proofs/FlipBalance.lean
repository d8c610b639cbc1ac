import Verif.Proofs.FlipLaw
import Verif.Spec.SpinFlip

/-!
# The law of a spin-flip update: stationarity
-/

set_option linter.all false

namespace CTInt

open MeasureTheory Set

variable {K : Type} [RCLike K] [DecidableEq K]
variable {c : Ctx K}

/-! ## The configurations -/

open Classical in
theorem fieldStates_spec {tbl : List (VDef K)} {vs x : List Vert} (h : x ∈ fieldStates tbl vs) :
    x.length = vs.length ∧ ∀ i, i < x.length → (x.getD i default).nonInt = false ∧
      (x.getD i default).type = (vs.getD i default).type ∧ 0 ≤ (x.getD i default).af ∧
      (x.getD i default).af < (termOf tbl (x.getD i default)).numAf := by
  induction vs generalizing x with
  | nil =>
    unfold fieldStates at h
    rw [Finset.mem_singleton] at h
    subst h
    exact ⟨rfl, fun i hi => absurd hi (by simp)⟩
  | cons v vs ih =>
    unfold fieldStates at h
    rw [Finset.mem_image] at h
    obtain ⟨⟨k, y⟩, hz, rfl⟩ := h
    rw [Finset.mem_product, Finset.mem_range] at hz
    obtain ⟨h1, h2⟩ := ih hz.2
    refine ⟨by simp [h1], fun i hi => ?_⟩
    cases i with
    | zero => exact ⟨rfl, rfl, Int.natCast_nonneg _, by show ((k : ℕ) : ℤ) < _; exact Int.ofNat_lt.2 hz.1⟩
    | succ i =>
      simp only [List.getD_cons_succ]
      exact h2 i (by simpa using hi)

open Classical in
theorem fieldStates_modify {tbl : List (VDef K)} {vs x : List Vert} (h : x ∈ fieldStates tbl vs) {i k : ℕ}
    (hi : i < x.length) (hk : k < (termOf tbl (x.getD i default)).numAf) :
    x.modify i (flipTo · (k : ℤ)) ∈ fieldStates tbl vs := by
  induction vs generalizing x i with
  | nil =>
    unfold fieldStates at h
    rw [Finset.mem_singleton] at h
    subst h
    exact absurd hi (by simp)
  | cons v vs ih =>
    unfold fieldStates at h ⊢
    rw [Finset.mem_image] at h ⊢
    obtain ⟨⟨j, y⟩, hz, rfl⟩ := h
    rw [Finset.mem_product] at hz
    cases i with
    | zero =>
      refine ⟨(k, y), ?_, ?_⟩
      · rw [Finset.mem_product]; exact ⟨Finset.mem_range.2 hk, hz.2⟩
      · rw [List.modify_zero_cons]
        unfold flipTo
        rw [if_neg (by omega)]
    | succ i =>
      refine ⟨(j, y.modify i (flipTo · (k : ℤ))), ?_, by rw [List.modify_succ_cons]⟩
      rw [Finset.mem_product]
      exact ⟨hz.1, ih hz.2 (by simpa using hi) (by simpa using hk)⟩

/-! ## Balance -/

theorem min_ratio (a b : K) : ‖a‖ * min 1 ‖b / a‖ = min ‖a‖ ‖b‖ := by
  by_cases h : a = 0
  · subst h; simp
  · rw [mul_min_of_nonneg _ _ (norm_nonneg _), mul_one, norm_div, mul_div_cancel₀ _ (norm_ne_zero_iff.2 h)]

theorem modify_prod {tbl : List (VDef K)} {x : List Vert} (hx : ∀ v ∈ x, v.nonInt = false) {i k : ℕ} :
    ((interacting (x.modify i (flipTo · (k : ℤ)))).map fun v => ((termOf tbl v).numAf : ℝ)⁻¹).prod =
      ((interacting x).map fun v => ((termOf tbl v).numAf : ℝ)⁻¹).prod := by
  have e : ∀ y : List Vert, (∀ v ∈ y, v.nonInt = false) → interacting y = y := by
    intro y hy
    unfold interacting
    rw [List.filter_eq_self]
    intro v hv
    simp [hy v hv]
  rw [e x hx, e]
  · congr 1
    apply List.ext_getElem (by simp)
    intro j h1 h2
    rw [List.getElem_map, List.getElem_map, List.getElem_modify]
    split
    · unfold flipTo; rw [if_neg (by omega)]; rfl
    · rfl
  · intro v hv
    obtain ⟨j, hj, rfl⟩ := List.mem_iff_getElem.1 hv
    rw [List.getElem_modify]
    split
    · unfold flipTo; rw [if_neg (by omega)]
    · exact hx _ (List.getElem_mem _)

theorem target_accProb (x y : List Vert) :
    ENNReal.ofReal (target c.NI c.nf c.G0 c.tbl x) * accProb c x y =
      ENNReal.ofReal (min ‖weight c.NI c.nf c.G0 c.tbl x‖ ‖weight c.NI c.nf c.G0 c.tbl y‖ *
        ((interacting x).map fun v => ((termOf c.tbl v).numAf : ℝ)⁻¹).prod) := by
  unfold accProb target
  have hp : 0 ≤ ((interacting x).map fun v => ((termOf c.tbl v).numAf : ℝ)⁻¹).prod := by
    apply List.prod_nonneg
    intro z hz
    rw [List.mem_map] at hz
    obtain ⟨v, _, rfl⟩ := hz
    positivity
  rw [← ENNReal.ofReal_mul (mul_nonneg (norm_nonneg _) hp), ← min_ratio]
  congr 1
  ring

theorem accProb_le (x y : List Vert) : accProb c x y ≤ 1 := by
  unfold accProb
  exact ENNReal.ofReal_le_one.2 (min_le_left _ _)

theorem accProb_balance {x : List Vert} (hx : ∀ v ∈ x, v.nonInt = false) {i k : ℕ} :
    ENNReal.ofReal (target c.NI c.nf c.G0 c.tbl x) * accProb c x (x.modify i (flipTo · (k : ℤ))) =
      ENNReal.ofReal (target c.NI c.nf c.G0 c.tbl (x.modify i (flipTo · (k : ℤ)))) *
        accProb c (x.modify i (flipTo · (k : ℤ))) x := by
  rw [target_accProb, target_accProb, modify_prod hx, min_comm]

theorem modify_back {x : List Vert} {i k : ℕ} (hi : i < x.length) (hn : (x.getD i default).nonInt = false)
    (ha : 0 ≤ (x.getD i default).af) :
    (x.modify i (flipTo · (k : ℤ))).modify i (flipTo · (((x.getD i default).af.toNat : ℕ) : ℤ)) = x := by
  apply List.ext_getElem (by simp)
  intro j h1 h2
  rw [List.getElem_modify]
  split
  · rename_i q
    subst q
    rw [List.getElem_modify, if_pos rfl]
    obtain ⟨z, ez⟩ : ∃ z, z = (x.getD i default).af.toNat := ⟨_, rfl⟩
    simp only [← ez]
    rw [List.getD_eq_getElem _ _ hi] at hn ha ez
    rw [ez]
    unfold flipTo
    rw [if_neg (by omega), if_neg (by omega), Int.toNat_of_nonneg ha]
    cases e : x[i] with
    | mk a b c d f => rw [e] at hn; simp at hn ⊢; exact hn
  · rw [List.getElem_modify, if_neg (by assumption)]

theorem sum_inv (s : Finset ℕ) {n : ℕ} (h : s.card = n) (hn : 0 < n) : ∑ k ∈ s, ENNReal.ofReal (1 / (n : ℝ)) = 1 := by
  rw [Finset.sum_const, h, nsmul_eq_mul, ← ENNReal.ofReal_natCast n, ← ENNReal.ofReal_mul (by positivity)]
  rw [mul_one_div_cancel (by positivity), ENNReal.ofReal_one]

theorem flipOp_stationary {vs : List Vert} {i : ℕ} (hi : i < vs.length) (f : List Vert → ENNReal) :
    ∑ x ∈ fieldStates c.tbl vs, ENNReal.ofReal (target c.NI c.nf c.G0 c.tbl x) * flipOp c i f x =
      ∑ x ∈ fieldStates c.tbl vs, ENNReal.ofReal (target c.NI c.nf c.G0 c.tbl x) * f x := by
  have hterm : ∀ x ∈ fieldStates c.tbl vs, termOf c.tbl (x.getD i default) = termOf c.tbl (vs.getD i default) := by
    intro x hx
    obtain ⟨h1, h2⟩ := fieldStates_spec hx
    unfold termOf
    rw [(h2 i (by omega)).2.1]
  by_cases hn : (termOf c.tbl (vs.getD i default)).numAf ≤ 1
  · refine Finset.sum_congr rfl fun x hx => ?_
    unfold flipOp
    rw [hterm x hx, if_pos hn]
  · obtain ⟨n, en⟩ : ∃ n, n = (termOf c.tbl (vs.getD i default)).numAf := ⟨_, rfl⟩
    rw [← en] at hn
    obtain ⟨X, eX⟩ : ∃ X, X = fieldStates c.tbl vs := ⟨_, rfl⟩
    obtain ⟨t, et⟩ : ∃ t : List Vert → ENNReal, t = fun x => ENNReal.ofReal (target c.NI c.nf c.G0 c.tbl x) := ⟨_, rfl⟩
    obtain ⟨q, eq⟩ : ∃ q, q = ENNReal.ofReal (1 / ((n - 1 : ℕ) : ℝ)) := ⟨_, rfl⟩
    obtain ⟨S, eS⟩ : ∃ S : List Vert → Finset ℕ, S = fun x => Finset.range n \ {(x.getD i default).af.toNat} := ⟨_, rfl⟩
    have ht : ∀ x, ENNReal.ofReal (target c.NI c.nf c.G0 c.tbl x) = t x := fun x => by rw [et]
    have e1 : ∀ x ∈ X, t x * flipOp c i f x =
        (∑ k ∈ S x, t x * (q * (accProb c x (x.modify i (flipTo · (k : ℤ))) * f (x.modify i (flipTo · (k : ℤ)))))) +
          ∑ k ∈ S x, t x * (q * ((1 - accProb c x (x.modify i (flipTo · (k : ℤ)))) * f x)) := by
      intro x hx
      rw [eX] at hx
      unfold flipOp
      rw [hterm x hx, ← en, if_neg hn, Finset.mul_sum, ← Finset.sum_add_distrib, ← eq, eS]
      refine Finset.sum_congr rfl fun k _ => ?_
      ring
    have e2 : ∀ x ∈ X, t x * f x =
        (∑ k ∈ S x, t x * (q * (accProb c x (x.modify i (flipTo · (k : ℤ))) * f x))) +
          ∑ k ∈ S x, t x * (q * ((1 - accProb c x (x.modify i (flipTo · (k : ℤ)))) * f x)) := by
      intro x hx
      rw [eX] at hx
      obtain ⟨h1, h2⟩ := fieldStates_spec hx
      obtain ⟨_, _, a0, a1⟩ := h2 i (by omega)
      rw [hterm x hx, ← en] at a1
      rw [← Finset.sum_add_distrib]
      have : ∀ k ∈ S x, t x * (q * (accProb c x (x.modify i (flipTo · (k : ℤ))) * f x)) +
          t x * (q * ((1 - accProb c x (x.modify i (flipTo · (k : ℤ)))) * f x)) = q * (t x * f x) := by
        intro k _
        rw [← mul_add, ← mul_add, ← add_mul, add_tsub_cancel_of_le (accProb_le _ _)]
        ring
      rw [Finset.sum_congr rfl this, ← Finset.sum_mul, eq, sum_inv, one_mul]
      · rw [eS]
        simp only []
        rw [Finset.card_sdiff_of_subset, Finset.card_range, Finset.card_singleton]
        rw [Finset.singleton_subset_iff, Finset.mem_range]
        omega
      · omega
    simp only [ht]
    rw [← eX, Finset.sum_congr rfl e1, Finset.sum_congr rfl e2, Finset.sum_add_distrib, Finset.sum_add_distrib]
    congr 1
    rw [Finset.sum_sigma', Finset.sum_sigma']
    have hmem : ∀ z ∈ X.sigma S, z.1 ∈ fieldStates c.tbl vs ∧ z.2 < n ∧ z.2 ≠ (z.1.getD i default).af.toNat := by
      intro z hz
      rw [Finset.mem_sigma, eX, eS] at hz
      simp only [Finset.mem_sdiff, Finset.mem_range, Finset.mem_singleton] at hz
      exact hz
    have hget : ∀ z : (Σ _ : List Vert, ℕ), z.1 ∈ fieldStates c.tbl vs →
        ((z.1.modify i (flipTo · (z.2 : ℤ))).getD i default).af.toNat = z.2 := by
      intro z hz
      obtain ⟨h1, h2⟩ := fieldStates_spec hz
      rw [getD_modify _ _ _ _ (by omega), if_pos rfl]
      unfold flipTo
      rw [if_neg (by omega)]
      exact Int.toNat_natCast _
    have hto : ∀ z ∈ X.sigma S, (⟨z.1.modify i (flipTo · (z.2 : ℤ)), (z.1.getD i default).af.toNat⟩ : Σ _ : List Vert, ℕ) ∈ X.sigma S := by
      intro z hz
      obtain ⟨h1, h2, h3⟩ := hmem z hz
      obtain ⟨g1, g2⟩ := fieldStates_spec h1
      obtain ⟨_, _, a0, a1⟩ := g2 i (by omega)
      rw [hterm _ h1, ← en] at a1
      rw [Finset.mem_sigma, eX, eS]
      simp only [Finset.mem_sdiff, Finset.mem_range, Finset.mem_singleton]
      refine ⟨fieldStates_modify h1 (by omega) (by rw [hterm _ h1, ← en]; exact h2), by omega, ?_⟩
      rw [hget z h1]
      exact Ne.symm h3
    have hback : ∀ z ∈ X.sigma S, (⟨(z.1.modify i (flipTo · (z.2 : ℤ))).modify i (flipTo · (((z.1.getD i default).af.toNat : ℕ) : ℤ)),
        ((z.1.modify i (flipTo · (z.2 : ℤ))).getD i default).af.toNat⟩ : Σ _ : List Vert, ℕ) = z := by
      intro z hz
      obtain ⟨h1, h2, h3⟩ := hmem z hz
      obtain ⟨g1, g2⟩ := fieldStates_spec h1
      obtain ⟨b0, _, a0, a1⟩ := g2 i (by omega)
      rw [hget z h1, modify_back (by omega) b0 a0]
    refine Finset.sum_nbij' (fun z => ⟨z.1.modify i (flipTo · (z.2 : ℤ)), (z.1.getD i default).af.toNat⟩)
      (fun z => ⟨z.1.modify i (flipTo · (z.2 : ℤ)), (z.1.getD i default).af.toNat⟩) hto hto hback hback ?_
    intro z hz
    obtain ⟨h1, h2, h3⟩ := hmem z hz
    obtain ⟨g1, g2⟩ := fieldStates_spec h1
    obtain ⟨b0, _, a0, a1⟩ := g2 i (by omega)
    have hint : ∀ v ∈ z.1, v.nonInt = false := by
      intro v hv
      obtain ⟨j, hj, rfl⟩ := List.mem_iff_getElem.1 hv
      have := (g2 j hj).1
      rwa [List.getD_eq_getElem _ _ hj] at this
    simp only []
    rw [modify_back (by omega) b0 a0]
    have hb := accProb_balance (c := c) hint (i := i) (k := z.2)
    rw [ht, ht] at hb
    calc t z.1 * (q * (accProb c z.1 (z.1.modify i (flipTo · (z.2 : ℤ))) * f (z.1.modify i (flipTo · (z.2 : ℤ)))))
        = t z.1 * accProb c z.1 (z.1.modify i (flipTo · (z.2 : ℤ))) * (q * f (z.1.modify i (flipTo · (z.2 : ℤ)))) := by ring
      _ = _ := by rw [hb]; ring

theorem flipOps_stationary {vs : List Vert} {l : List ℕ} (hl : ∀ i ∈ l, i < vs.length) (f : List Vert → ENNReal) :
    ∑ x ∈ fieldStates c.tbl vs, ENNReal.ofReal (target c.NI c.nf c.G0 c.tbl x) * flipOps c l f x =
      ∑ x ∈ fieldStates c.tbl vs, ENNReal.ofReal (target c.NI c.nf c.G0 c.tbl x) * f x := by
  induction l with
  | nil => rfl
  | cons i l ih =>
    unfold flipOps
    rw [flipOp_stationary (hl i (by simp)), ih fun j hj => hl j (by simp [hj])]

/-! ## The selection of the vertices -/

/-- The mean over the selections of `n` further numbers. -/
noncomputable def pickMean (N : ℕ) (F : List ℕ → ENNReal) (l : List ℕ) : ℕ → ENNReal
  | 0 => F l
  | n + 1 => ∑ k ∈ Finset.range N \ l.toFinset, ENNReal.ofReal (1 / ((N - l.length : ℕ) : ℝ)) * pickMean N F (l ++ [k]) n

theorem pickMean_law {N : ℕ} (B : List ℕ → Set (ℕ → ℝ)) (F : List ℕ → ENNReal)
    (hF : ∀ L : List ℕ, L.Nodup → (∀ x ∈ L, x < N) → streams (B L) = F L) {l : List ℕ} {n : ℕ} (hnd : l.Nodup)
    (hlt : ∀ x ∈ l, x < N) (hn : l.length + n ≤ N) : streams (PickEv N B l n) = pickMean N F l n := by
  induction n generalizing l with
  | zero => rw [pickEv_zero]; exact hF l hnd hlt
  | succ n ih =>
    rw [pickEv_step B hnd hlt (by omega)]
    unfold pickMean
    refine Finset.sum_congr rfl fun k hk => ?_
    rw [Finset.mem_sdiff, Finset.mem_range, List.mem_toFinset] at hk
    rw [ih]
    · rw [List.nodup_append]
      refine ⟨hnd, by simp, ?_⟩
      intro x hx y hy e
      rw [List.mem_singleton] at hy
      exact hk.2 (by rw [← hy, ← e]; exact hx)
    · intro x hx
      rw [List.mem_append, List.mem_singleton] at hx
      rcases hx with hx | rfl
      · exact hlt x hx
      · exact hk.1
    · rw [List.length_append, List.length_singleton]; omega

theorem pickMean_stationary {N : ℕ} {ι : Type} (X : Finset ι) (t : ι → ENNReal) (F : ι → List ℕ → ENNReal) {T : ENNReal}
    (hF : ∀ L : List ℕ, L.Nodup → (∀ x ∈ L, x < N) → ∑ x ∈ X, t x * F x L = T) {l : List ℕ} {n : ℕ} (hnd : l.Nodup)
    (hlt : ∀ x ∈ l, x < N) (hn : l.length + n ≤ N) : ∑ x ∈ X, t x * pickMean N (F x) l n = T := by
  induction n generalizing l with
  | zero => exact hF l hnd hlt
  | succ n ih =>
    unfold pickMean
    simp only [Finset.mul_sum]
    rw [Finset.sum_comm]
    have : ∀ k ∈ Finset.range N \ l.toFinset, ∑ x ∈ X, t x * (ENNReal.ofReal (1 / ((N - l.length : ℕ) : ℝ)) * pickMean N (F x) (l ++ [k]) n) =
        ENNReal.ofReal (1 / ((N - l.length : ℕ) : ℝ)) * T := by
      intro k hk
      rw [Finset.mem_sdiff, Finset.mem_range, List.mem_toFinset] at hk
      rw [← ih (l := l ++ [k]) ?_ ?_ ?_, Finset.mul_sum]
      · exact Finset.sum_congr rfl fun x _ => by ring
      · rw [List.nodup_append]
        refine ⟨hnd, by simp, ?_⟩
        intro x hx y hy e
        rw [List.mem_singleton] at hy
        exact hk.2 (by rw [← hy, ← e]; exact hx)
      · intro x hx
        rw [List.mem_append, List.mem_singleton] at hx
        rcases hx with hx | rfl
        · exact hlt x hx
        · exact hk.1
      · rw [List.length_append, List.length_singleton]; omega
    rw [Finset.sum_congr rfl this, ← Finset.sum_mul, sum_inv, one_mul]
    · rw [Finset.card_sdiff_of_subset, Finset.card_range, List.toFinset_card_of_nodup hnd]
      intro x hx
      rw [Finset.mem_range]
      exact hlt x (List.mem_toFinset.1 hx)
    · omega

/-! ## The batch -/

theorem spinFlipLoop_ready (ht : TblOK c.NI c.nf c.tbl) (J : ℕ → ℕ → ℕ → ℕ → ℕ → K) {u : ℕ → ℝ} (hu : ∀ k, 0 ≤ u k ∧ u k < 1)
    {l : List ℕ} (hl : l.Nodup) {s s' : Sub K} {a : Abs} (h : FlipReady c l s a) {w w' : K} {fuel p p' : ℕ}
    (e : Mgr.spinFlipLoop c J u fuel l s w p = .ok (s', w', p')) : ∃ a', FlipReady c [] s' a' := by
  induction l generalizing s a w p with
  | nil =>
    unfold Mgr.spinFlipLoop at e
    injection e with e
    injection e with e _
    subst e
    exact ⟨a, h⟩
  | cons i l ih =>
    rw [List.nodup_cons] at hl
    obtain ⟨hil, hib⟩ := h.todo i (by simp)
    unfold Mgr.spinFlipLoop at e
    rw [Run.bind_eq_ok] at e
    obtain ⟨⟨s1, o, p1⟩, e1, e2⟩ := e
    suffices hh : ∃ a1, FlipReady c l s1 a1 by
      obtain ⟨a1, h1⟩ := hh
      exact ih hl.2 h1 e2
    unfold Mgr.spinFlipStep at e1
    rw [h.means.cfg, Res.get_of_lt hil] at e1
    simp only [Run.lift_ok, Run.bind_ok] at e1
    have hv := h.means.vertOK (a.cfg.getD i default) (by rw [List.getD_eq_getElem _ _ hil]; exact List.getElem_mem _)
    rw [List.getD_eq_getElem _ _ hil] at hv
    have hv1 : (a.cfg[i]).type < c.tbl.length := hv.1
    have hterm : termOf c.tbl (a.cfg.getD i default) = c.tbl[(a.cfg[i]).type]'hv1 := by
      unfold termOf
      rw [List.getD_eq_getElem _ _ hil, List.getD_eq_getElem _ _ hv1]
    rw [Res.get_of_lt hv1] at e1
    simp only [Run.lift_ok, Run.bind_ok] at e1
    split at e1
    · rw [Run.pure_eq] at e1
      injection e1 with e1
      injection e1 with e1 _
      subst e1
      exact ⟨a, h.means, h.op, h.int, fun j hj => h.todo j (List.mem_cons_of_mem _ hj)⟩
    · rw [Run.bind_eq_ok] at e1
      obtain ⟨⟨x, p2⟩, e3, e4⟩ := e1
      obtain ⟨x0, _, x1, _⟩ := drawOther_ok hu e3
      obtain ⟨s2, o2, e5, _, e6, _⟩ := flip_one_spec ht h.means h.op hil (z := x)
        (Or.inr ⟨x0, by rw [hterm]; exact x1 (by omega)⟩) (Or.inl hib) (hu p2).1 1 (J (l.length + 2) 0)
      simp only [e5, Run.lift_ok, Run.bind_ok, Run.pure_eq] at e4
      injection e4 with e4
      injection e4 with e4 _
      subst e4
      exact ⟨_, h.step hl.1 (by omega) e6⟩

theorem ae_iff {A B : Set (ℕ → ℝ)} (h : ∀ u, GoodS u → (u ∈ A ↔ u ∈ B)) : streams A = streams B := by
  apply measure_congr
  filter_upwards [ae_good] with u hu
  exact propext (h u hu)

/-- An object between two batches. -/
structure Idle (c : Ctx K) (s : Sub K) (x : List Vert) : Prop where
  means : ∃ a, Means c s a ∧ a.isOpen = false ∧ a.cfg = x
  int : ∀ v ∈ x, v.nonInt = false

/-- The probability of what follows `do_spin_flip_update`, if it only depends on the configuration. -/
theorem doSpinFlip_law (ht : TblOK c.NI c.nf c.tbl) (hf : FullTerms c) (m : Mgr) (J : ℕ → ℕ → ℕ → ℕ → ℕ → K)
    {B : Sub K → Set (ℕ → ℝ)} {F : List Vert → ENNReal} (hB : ∀ s x, Idle c s x → streams (B s) = F x)
    {s : Sub K} {x : List Vert} (h : Idle c s x) :
    streams {u | Then (fun fuel => m.doSpinFlip c J u fuel s 0) B u} =
      pickMean x.length (fun L => flipOps c L F x) [] (min (2 * m.kIns) x.length) := by
  obtain ⟨⟨a, h, hcl, rfl⟩, hint⟩ := h
  obtain ⟨s1, e1, m1, ad1⟩ := start_spec ht h hcl (new := []) (by simp) (J 0 0) (J 0 1) (J 0 2)
  obtain ⟨a1, ea1⟩ : ∃ a1, a1 = a.step (.start []) := ⟨_, rfl⟩
  have hc1 : a1.cfg = a.cfg := by rw [ea1]; exact List.append_nil _
  have hb1 : a1.base = a.cfg := by rw [ea1]; exact List.append_nil _
  rw [← ea1] at m1
  have hready : ∀ L : List ℕ, (∀ x ∈ L, x < a.cfg.length) → FlipReady c L s1 a1 := by
    intro L hL
    refine ⟨m1, by rw [ea1]; rfl, by rw [hc1]; exact hint, fun i hi => ?_⟩
    rw [hc1, hb1]
    exact ⟨hL i hi, rfl⟩
  have hfin : ∀ s' a', FlipReady c [] s' a' →
      ∃ s'', s'.finalizeUpdate c (J 1 0) (J 1 1) (J 1 2) = .ok s'' ∧ Idle c s'' a'.cfg := by
    intro s' a' h'
    obtain ⟨s3, e3, m3, -⟩ := finish_spec ht hf h'.means h'.op (J 1 0) (J 1 1) (J 1 2)
    refine ⟨s3, e3, ⟨_, m3, rfl, ?_⟩, h'.int⟩
    show interacting a'.cfg = a'.cfg
    unfold interacting
    rw [List.filter_eq_self]
    intro v hv
    simp [h'.int v hv]
  obtain ⟨B1, eB1⟩ : ∃ B1 : Sub K → Set (ℕ → ℝ), B1 = fun s' =>
    {u | ∃ s'', s'.finalizeUpdate c (J 1 0) (J 1 1) (J 1 2) = .ok s'' ∧ u ∈ B s''} := ⟨_, rfl⟩
  have hB1 : ∀ s' a', FlipReady c [] s' a' → streams (B1 s') = F a'.cfg := by
    intro s' a' h'
    obtain ⟨s'', e'', c''⟩ := hfin s' a' h'
    rw [← hB s'' _ c'', eB1]
    congr 1
    ext u
    constructor
    · rintro ⟨t, e, hu⟩
      rw [e''] at e
      injection e with e
      rw [e]; exact hu
    · intro hu
      exact ⟨s'', e'', hu⟩
  rw [← pickMean_law (N := a.cfg.length) (fun L => {u | Then (fun fuel => Mgr.spinFlipLoop c J u fuel L s1 1 0) B1 u}) _ ?_
    List.nodup_nil (by simp) (by simp)]
  · refine ae_iff fun u hu => ?_
    obtain ⟨F, ⟨L, p⟩, hL⟩ := (pickNumbers_total hu.2 (min_le_right (2 * m.kIns) a.cfg.length) 0).ends hu.1
    have hLr : Returns (fun fuel => pickNumbers u fuel a.cfg.length (min (2 * m.kIns) a.cfg.length) 0) (L, p) := ⟨F, hL⟩
    obtain ⟨d1, d2, d3, -⟩ := C32_distinct (hL F le_rfl)
    have step1 : u ∈ {u | Then (fun fuel => m.doSpinFlip c J u fuel s 0) B u} ↔
        Then (fun fuel => Mgr.spinFlipLoop c J u fuel L s1 1 p >>= fun z =>
          (Run.lift (z.1.finalizeUpdate c (J 1 0) (J 1 1) (J 1 2)) >>= fun s => .ok (s, z.2.1, z.2.2))) B u := by
      rw [mem_setOf_eq, ← Then.bind_iff (g := fun fuel z => Mgr.spinFlipLoop c J u fuel z.1 s1 1 z.2 >>= fun z =>
          (Run.lift (z.1.finalizeUpdate c (J 1 0) (J 1 1) (J 1 2)) >>= fun s => .ok (s, z.2.1, z.2.2))) hLr]
      refine Then.congr fun fuel => ?_
      unfold Mgr.doSpinFlip
      rw [h.cfg]
      simp only [e1, Run.lift_ok, Run.bind_ok]
      rfl
    have step2 : Then (fun fuel => Mgr.spinFlipLoop c J u fuel L s1 1 p >>= fun z =>
          (Run.lift (z.1.finalizeUpdate c (J 1 0) (J 1 1) (J 1 2)) >>= fun s => .ok (s, z.2.1, z.2.2))) B u ↔
        Then (fun fuel => Mgr.spinFlipLoop c J u fuel L s1 1 p) B1 u := by
      have hinv : FlipInv c a (weight c.NI c.nf c.G0 c.tbl a.cfg) L s1 1 a1 := by
        have hr := hready L d3
        exact ⟨m1, hr.op, by rw [ea1]; exact (Reach.refl a).step ad1, hr.todo, by rw [one_mul, hc1]⟩
      obtain ⟨F2, ⟨t1, t2, t3⟩, hz⟩ := (spinFlipLoop_total ht hu.2 d2 hinv J p).ends hu.1
      have hz' : Returns (fun fuel => Mgr.spinFlipLoop c J u fuel L s1 1 p) (t1, t2, t3) := ⟨F2, hz⟩
      obtain ⟨a', h'⟩ := spinFlipLoop_ready ht J hu.2 d2 (hready L d3) (hz F2 le_rfl)
      obtain ⟨s3, e3, -⟩ := hfin _ _ h'
      rw [Then.bind_iff hz', eB1]
      simp only [e3, Run.lift_ok, Run.bind_ok]
      constructor
      · rintro ⟨s', w', p', hr, hY⟩
        have := (Returns.const.1 hr).symm
        injection this with q q'
        injection q' with _ q'
        rw [q, q'] at hY
        exact ⟨t1, t2, t3, hz', s3, e3, hY⟩
      · rintro ⟨s', w', p', hr, s'', e'', hY⟩
        have := hr.unique hz'
        injection this with q q'
        injection q' with _ q'
        rw [q, e3] at e''
        injection e'' with e''
        rw [← e'', q'] at hY
        exact ⟨s3, t2, t3, Returns.const.2 rfl, hY⟩
    rw [step1, step2]
    have step3 : Then (fun fuel => Mgr.spinFlipLoop c J u fuel L s1 1 p) B1 u ↔
        Then (fun fuel => Mgr.spinFlipLoop c J (dropS p u) fuel L s1 1 0) B1 (dropS p u) :=
      Then.shift (q := p) fun fuel => spinFlipLoop_shift J u fuel L s1 1 p 0
    rw [step3]
    constructor
    · intro hE
      exact ⟨L, p, hLr, hE⟩
    · rintro ⟨L', p', hr', hE⟩
      have := hLr.unique hr'
      injection this with q1 q2
      subst q1 q2
      exact hE
  · intro L hnd hlt
    rw [spinFlipLoop_law ht J hB1 hnd (hready L hlt), hc1]

end CTInt
