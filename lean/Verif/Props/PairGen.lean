import Verif.Props.Rejection
import Verif.Model.PairGen
import Verif.Proofs.MoveKernels

/-!
# C71: generated vertex pairs
-/

set_option linter.all false

namespace CTInt

open MeasureTheory Set

variable {K : Type} [RCLike K] [DecidableEq K]

theorem pairVertex_ok {tbl : List (VDef K)} {t : ℕ} (ht : t < tbl.length) (hd : (tbl[t]).isDensity = false) (u : ℕ → ℝ) (time : ℝ) (p : ℕ) :
    pairVertex tbl u t time p = .ok (⟨t, (⌊u p * (tbl[t]).numAf⌋₊ : ℤ), ((tbl[t]).rank : ℤ), time, false, false, 0⟩, p + 1) := by
  unfold pairVertex
  rw [Res.get_of_lt ht, Res.bind_ok, Res.throwIf_false (by rw [hd]; simp), Res.bind_ok]
  rfl

/-- The pair produced when the rejection loop delivers `x` and position `q`. -/
noncomputable def pairOf (tbl : List (VDef K)) (t1 t2 : ℕ) (beta : ℝ) (u : ℕ → ℝ) (p : ℕ) (x : ℝ) (q : ℕ) : List Vert × ℕ :=
  ([⟨t1, (⌊u q * (tbl.getD t1 default).numAf⌋₊ : ℤ), ((tbl.getD t1 default).rank : ℤ), mymod (beta * u p) beta, false, false, 0⟩,
    ⟨t2, (⌊u (q + 1) * (tbl.getD t2 default).numAf⌋₊ : ℤ), ((tbl.getD t2 default).rank : ℤ), mymod (mymod (beta * u p) beta + x) beta, false, false, 0⟩],
    q + 2)

theorem generatePair2_eq {tbl : List (VDef K)} {t1 t2 : ℕ} (h12 : t1 < t2) (ht : t2 < tbl.length)
    (hd1 : (tbl.getD t1 default).isDensity = false) (hd2 : (tbl.getD t2 default).isDensity = false) (P : ℝ → ℝ) (beta : ℝ)
    (u : ℕ → ℝ) (fuel p : ℕ) :
    generatePair2 tbl t1 t2 P beta u fuel p =
      rejection P (P 0) beta u fuel (p + 1) >>= fun z => .ok (pairOf tbl t1 t2 beta u p z.1 z.2) := by
  unfold generatePair2
  congr 1
  funext z
  obtain ⟨x, q⟩ := z
  have h1 : t1 < tbl.length := by omega
  rw [List.getD_eq_getElem _ _ h1] at hd1
  rw [List.getD_eq_getElem _ _ ht] at hd2
  simp only []
  rw [Run.assert_true h12, Run.bind_ok, pairVertex_ok h1 hd1]
  simp only [Run.lift_ok, Run.bind_ok]
  rw [pairVertex_ok ht hd2]
  simp only [Run.lift_ok, Run.bind_ok]
  unfold pairOf
  rw [List.getD_eq_getElem _ _ h1, List.getD_eq_getElem _ _ ht]
  rfl

theorem generatePair2_returns {tbl : List (VDef K)} {t1 t2 : ℕ} (h12 : t1 < t2) (ht : t2 < tbl.length)
    (hd1 : (tbl.getD t1 default).isDensity = false) (hd2 : (tbl.getD t2 default).isDensity = false) {P : ℝ → ℝ} {beta : ℝ}
    (hb : 0 < beta) (h0 : ∀ x ∈ Ico 0 beta, 0 ≤ P x ∧ P x ≤ P 0) {u : ℕ → ℝ} (hu : ∀ k, 0 ≤ u k ∧ u k < 1) (p : ℕ) (r : List Vert × ℕ) :
    Returns (fun fuel => generatePair2 tbl t1 t2 P beta u fuel p) r ↔
      ∃ k, rejHit P (P 0) beta k (dropS (p + 1) u) ∧ r = pairOf tbl t1 t2 beta u p (beta * u (p + 1 + 2 * k)) (p + 1 + 2 * k + 2) := by
  have hle : ∀ k, P (beta * u k) ≤ P 0 := fun k => (h0 _ ⟨mul_nonneg hb.le (hu k).1, by nlinarith [(hu k).2]⟩).2
  rw [returns_congr (fun fuel => generatePair2_eq h12 ht hd1 hd2 P beta u fuel p)]
  constructor
  · intro h
    obtain ⟨F, hF⟩ := h
    have h1 := hF F le_rfl
    simp only [Run.bind_eq_ok] at h1
    obtain ⟨⟨x, q⟩, e1, e2⟩ := h1
    have hret : Returns (fun fuel => rejection P (P 0) beta u fuel (p + 1)) (x, q) := by
      refine ⟨F, fun n hn => ?_⟩
      have h2 := hF n hn
      simp only [Run.bind_eq_ok] at h2
      obtain ⟨z, e3, e4⟩ := h2
      have mono : ∀ (f p : ℕ) (y : ℝ × ℕ), rejection P (P 0) beta u f p = .ok y → ∀ f' ≥ f, rejection P (P 0) beta u f' p = .ok y := by
        intro f
        induction f with
        | zero => intro p y h; cases h
        | succ f ih =>
          intro p y h f' hf
          obtain ⟨g, rfl⟩ : ∃ g, f' = g + 1 := ⟨f' - 1, by omega⟩
          unfold rejection at h ⊢
          simp only [] at h ⊢
          rw [Run.assert_true (hle p)] at h ⊢
          simp only [Run.bind_ok] at h ⊢
          split at h
          · rename_i hh; rw [if_pos hh]; exact h
          · rename_i hh; rw [if_neg hh]; exact ih _ _ h _ (by omega)
      exact mono F (p + 1) _ e1 n hn
    obtain ⟨k, hk, rfl, rfl⟩ := (rejection_returns hle _ _ _).1 hret
    refine ⟨k, hk, ?_⟩
    injection e2 with e2
    exact e2.symm
  · rintro ⟨k, hk, rfl⟩
    have hret := (rejection_returns hle (p + 1) (beta * u (p + 1 + 2 * k)) (p + 1 + 2 * k + 2)).2 ⟨k, hk, rfl, rfl⟩
    exact (Returns.bind_iff (g := fun _ (z : ℝ × ℕ) => Run.ok (pairOf tbl t1 t2 beta u p z.1 z.2)) hret _).2 (Returns.const.2 rfl)

/-- **C71.**  A generated pair has the two types asked for, their ranks and states of theirs, times in [0,beta), and is
    interacting. -/
theorem C71_form {tbl : List (VDef K)} {t1 t2 : ℕ} (h12 : t1 < t2) (ht : t2 < tbl.length)
    (hd1 : (tbl.getD t1 default).isDensity = false) (hd2 : (tbl.getD t2 default).isDensity = false)
    (hs1 : 0 < (tbl.getD t1 default).numAf) (hs2 : 0 < (tbl.getD t2 default).numAf) {P : ℝ → ℝ} {beta : ℝ}
    (hb : 0 < beta) (h0 : ∀ x ∈ Ico 0 beta, 0 ≤ P x ∧ P x ≤ P 0) {u : ℕ → ℝ} (hu : ∀ k, 0 ≤ u k ∧ u k < 1) {fuel p : ℕ} {vs : List Vert} {q : ℕ}
    (h : generatePair2 tbl t1 t2 P beta u fuel p = .ok (vs, q)) :
    ∃ v w, vs = [v, w] ∧ p + 5 ≤ q ∧
      (v.type = t1 ∧ v.rank = (tbl.getD t1 default).rank ∧ 0 ≤ v.af ∧ v.af < (tbl.getD t1 default).numAf ∧ v.time ∈ Ico 0 beta ∧
        v.nonInt = false ∧ v.isDensity = false) ∧
      (w.type = t2 ∧ w.rank = (tbl.getD t2 default).rank ∧ 0 ≤ w.af ∧ w.af < (tbl.getD t2 default).numAf ∧ w.time ∈ Ico 0 beta ∧
        w.nonInt = false ∧ w.isDensity = false) := by
  have hle : ∀ k, P (beta * u k) ≤ P 0 := fun k => (h0 _ ⟨mul_nonneg hb.le (hu k).1, by nlinarith [(hu k).2]⟩).2
  have key : ∀ (f p : ℕ) (y : ℝ × ℕ), rejection P (P 0) beta u f p = .ok y → 0 ≤ y.1 ∧ p + 2 ≤ y.2 := by
    intro f
    induction f with
    | zero => intro p y h; cases h
    | succ f ih =>
      intro p y h
      unfold rejection at h
      simp only [] at h
      rw [Run.assert_true (hle p)] at h
      simp only [Run.bind_ok] at h
      split at h
      · injection h with h
        rw [← h]
        exact ⟨mul_nonneg hb.le (hu p).1, le_rfl⟩
      · have := ih _ _ h
        exact ⟨this.1, by omega⟩
  rw [generatePair2_eq h12 ht hd1 hd2, Run.bind_eq_ok] at h
  obtain ⟨⟨x, r⟩, e1, e2⟩ := h
  obtain ⟨hx, hr⟩ := key _ _ _ e1
  simp only [] at hx hr
  injection e2 with e2
  unfold pairOf at e2
  injection e2 with e2 e3
  have ha : mymod (beta * u p) beta ∈ Ico 0 beta := (C33_mymod (x := beta * u p) hb).2.1 (mul_nonneg hb.le (hu p).1)
  have hbm : mymod (mymod (beta * u p) beta + x) beta ∈ Ico 0 beta := (C33_mymod (x := mymod (beta * u p) beta + x) hb).2.1 (by linarith [ha.1])
  refine ⟨_, _, e2.symm, by omega, ⟨rfl, rfl, by positivity, ?_, ha, rfl, rfl⟩, ⟨rfl, rfl, by positivity, ?_, hbm, rfl, rfl⟩⟩
  · show ((⌊u r * (tbl.getD t1 default).numAf⌋₊ : ℕ) : ℤ) < _
    exact Int.ofNat_lt.2 (drawn_lt hu hs1 r)
  · show ((⌊u (r + 1) * (tbl.getD t2 default).numAf⌋₊ : ℕ) : ℤ) < _
    exact Int.ofNat_lt.2 (drawn_lt hu hs2 (r + 1))

/-- **C71.**  If one of the two terms is of density type, the call throws as soon as the distance has been drawn, and
    returns no pair. -/
theorem C71_density_throws {tbl : List (VDef K)} {t1 t2 : ℕ} (h12 : t1 < t2) (ht : t2 < tbl.length)
    (hd : (tbl.getD t1 default).isDensity = true ∨ (tbl.getD t2 default).isDensity = true) {P : ℝ → ℝ} {beta : ℝ}
    {u : ℕ → ℝ} {fuel p : ℕ} {z : ℝ × ℕ} (h : rejection P (P 0) beta u fuel (p + 1) = .ok z) :
    generatePair2 tbl t1 t2 P beta u fuel p = .throw .logicError := by
  have h1 : t1 < tbl.length := by omega
  rw [List.getD_eq_getElem _ _ h1, List.getD_eq_getElem _ _ ht] at hd
  unfold generatePair2
  rw [h]
  obtain ⟨x, q⟩ := z
  simp only [Run.bind_ok]
  rw [Run.assert_true h12, Run.bind_ok]
  by_cases hd1 : (tbl[t1]).isDensity = false
  · rw [pairVertex_ok h1 hd1]
    simp only [Run.lift_ok, Run.bind_ok]
    have hd2 : (tbl[t2]).isDensity = true := by
      rcases hd with q | q
      · rw [hd1] at q; cases q
      · exact q
    unfold pairVertex
    rw [Res.get_of_lt ht, Res.bind_ok, Res.throwIf_true hd2]
    rfl
  · have hd1' : (tbl[t1]).isDensity = true := by simpa using hd1
    unfold pairVertex
    rw [Res.get_of_lt h1, Res.bind_ok, Res.throwIf_true hd1']
    rfl

/-- **C71.**  A pair of types that is not ascending runs into the failing assertion; `update.double_vertex_update_pairs`
    can contain such pairs. -/
theorem C71_not_ascending {tbl : List (VDef K)} {t1 t2 : ℕ} (h12 : ¬ t1 < t2) {P : ℝ → ℝ} {beta : ℝ}
    {u : ℕ → ℝ} {fuel p : ℕ} {z : ℝ × ℕ} (h : rejection P (P 0) beta u fuel (p + 1) = .ok z) :
    generatePair2 tbl t1 t2 P beta u fuel p = .ub := by
  unfold generatePair2
  rw [h]
  obtain ⟨x, q⟩ := z
  simp only [Run.bind_ok]
  unfold Run.assert
  rw [if_neg h12]
  rfl

/-! ## The law -/

section law
variable {P : ℝ → ℝ} {beta : ℝ}

/-- A parameter, then rejection sampling, then anything. -/
theorem rejection_after (hP : Measurable P) (hb : 0 < beta) (h0 : ∀ x ∈ Ico 0 beta, 0 ≤ P x ∧ P x ≤ P 0)
    (hpos : 0 < ∫⁻ x in Ico 0 beta, ENNReal.ofReal (P x)) {C : Set (ℝ × ℝ × (ℕ → ℝ))} (hC : MeasurableSet C) :
    streams {u | ∃ k, rejHit P (P 0) beta k (dropS 1 u) ∧ (u 0, beta * u (1 + 2 * k), dropS (1 + (2 * k + 2)) u) ∈ C} =
      ∫⁻ r, (∫⁻ x in Ico 0 beta, ENNReal.ofReal (P x) * streams {w | (r, x, w) ∈ C}) / (∫⁻ x in Ico 0 beta, ENNReal.ofReal (P x)) ∂uniform01 := by
  have hmax : 0 < P 0 := by
    by_contra hn
    push Not at hn
    refine absurd hpos (not_lt.2 (le_of_eq ?_))
    rw [setLIntegral_congr_fun (g := fun _ => 0) measurableSet_Ico fun x hx => ?_, lintegral_zero]
    have := (h0 x hx).2
    exact ENNReal.ofReal_of_nonpos (this.trans hn)
  obtain ⟨S, hSdef⟩ : ∃ S : Set (ℝ × (ℕ → ℝ)), S = ⋃ k, {z | rejHit P (P 0) beta k z.2 ∧ (z.1, beta * z.2 (2 * k), dropS (2 * k + 2) z.2) ∈ C} := ⟨_, rfl⟩
  have hS : MeasurableSet S := by
    rw [hSdef]
    refine MeasurableSet.iUnion fun k => ?_
    have h1 : Measurable fun z : ℝ × (ℕ → ℝ) => z.2 (2 * k) := (measurable_pi_apply (2 * k)).comp measurable_snd
    have h2 : Measurable fun z : ℝ × (ℕ → ℝ) => dropS (2 * k + 2) z.2 := (dropS_measurable (2 * k + 2)).comp measurable_snd
    exact (measurable_snd (measurableSet_rejHit hP k)).inter ((measurable_fst.prodMk ((h1.const_mul beta).prodMk h2)) hC)
  have e : {u : ℕ → ℝ | ∃ k, rejHit P (P 0) beta k (dropS 1 u) ∧ (u 0, beta * u (1 + 2 * k), dropS (1 + (2 * k + 2)) u) ∈ C} =
      {u | (u 0, dropS 1 u) ∈ S} := by
    ext u
    simp only [hSdef, mem_setOf_eq, mem_iUnion, dropS_drop]
    rfl
  rw [e, streams_event1 hS]
  refine lintegral_congr fun r => ?_
  have hCr : MeasurableSet {y : ℝ × (ℕ → ℝ) | (r, y) ∈ C} := measurable_prodMk_left hC
  rw [show {w | (r, w) ∈ S} = ⋃ k, rejEv P (P 0) beta {y : ℝ × (ℕ → ℝ) | (r, y) ∈ C} k from ?_, rejEv_measure hP hb hmax h0 hpos hCr]
  · rfl
  · ext w
    simp only [hSdef, mem_setOf_eq, mem_iUnion]
    rfl

/-- **C71.**  The times of a generated pair have the density P(t2 - t1 mod beta) / (beta ∫ P) on [0,beta)²; the two states
    are uniform, and the times, the states and the random numbers not yet used are independent. -/
theorem C71_law {tbl : List (VDef K)} {t1 t2 : ℕ} (h12 : t1 < t2) (ht : t2 < tbl.length)
    (hd1 : (tbl.getD t1 default).isDensity = false) (hd2 : (tbl.getD t2 default).isDensity = false)
    (hP : Measurable P) (hb : 0 < beta) (h0 : ∀ x ∈ Ico 0 beta, 0 ≤ P x ∧ P x ≤ P 0)
    (hpos : 0 < ∫⁻ x in Ico 0 beta, ENNReal.ofReal (P x)) {A : Set (ℝ × ℝ)} (hA : MeasurableSet A)
    {B : Set (ℕ → ℝ)} (hB : MeasurableSet B) {s1 s2 : ℕ} (hs1 : s1 < (tbl.getD t1 default).numAf) (hs2 : s2 < (tbl.getD t2 default).numAf) :
    streams {u | ∃ v w p, Returns (fun fuel => generatePair2 tbl t1 t2 P beta u fuel 0) ([v, w], p) ∧
        v.af = s1 ∧ w.af = s2 ∧ (v.time, w.time) ∈ A ∧ dropS p u ∈ B} =
      ENNReal.ofReal (1 / (tbl.getD t1 default).numAf) * ENNReal.ofReal (1 / (tbl.getD t2 default).numAf) *
        (ENNReal.ofReal (1 / beta) * ∫⁻ a in Ico 0 beta, (∫⁻ b in Ico 0 beta, A.indicator 1 (a, b) * ENNReal.ofReal (P (mymod (b - a) beta))) /
          ∫⁻ x in Ico 0 beta, ENNReal.ofReal (P x)) * streams B := by
  obtain ⟨n1, hn1⟩ : ∃ n1, n1 = (tbl.getD t1 default).numAf := ⟨_, rfl⟩
  obtain ⟨n2, hn2⟩ : ∃ n2, n2 = (tbl.getD t2 default).numAf := ⟨_, rfl⟩
  rw [← hn1, ← hn2]
  rw [← hn1] at hs1
  rw [← hn2] at hs2
  obtain ⟨F1, hF1⟩ : ∃ F1 : Set ℝ, F1 = {r : ℝ | ⌊r * n1⌋₊ = s1} := ⟨_, rfl⟩
  obtain ⟨F2, hF2⟩ : ∃ F2 : Set ℝ, F2 = {r : ℝ | ⌊r * n2⌋₊ = s2} := ⟨_, rfl⟩
  have hmF1 : MeasurableSet F1 := by rw [hF1]; exact (Nat.measurable_floor.comp (measurable_id.mul_const _)) (measurableSet_singleton s1)
  have hmF2 : MeasurableSet F2 := by rw [hF2]; exact (Nat.measurable_floor.comp (measurable_id.mul_const _)) (measurableSet_singleton s2)
  obtain ⟨T, hT⟩ : ∃ T : Set (ℕ → ℝ), T = {w | (w 0, w 1) ∈ F1 ×ˢ F2 ∧ dropS 2 w ∈ B} := ⟨_, rfl⟩
  have hmT : MeasurableSet T := by
    rw [hT]
    exact (((measurable_pi_apply 0).prodMk (measurable_pi_apply 1)) (hmF1.prod hmF2)).inter ((dropS_measurable 2) hB)
  have hTm : streams T = ENNReal.ofReal (1 / n1) * ENNReal.ofReal (1 / n2) * streams B := by
    rw [hT, streams_and2, Measure.prod_prod, hF1, hF2, uniform01_floor hs1, uniform01_floor hs2]
  obtain ⟨C, hCdef⟩ : ∃ C : Set (ℝ × ℝ × (ℕ → ℝ)), C = {z | (mymod (beta * z.1) beta, mymod (mymod (beta * z.1) beta + z.2.1) beta) ∈ A ∧ z.2.2 ∈ T} := ⟨_, rfl⟩
  have hC : MeasurableSet C := by
    rw [hCdef]
    have h1 : Measurable fun z : ℝ × ℝ × (ℕ → ℝ) => mymod (beta * z.1) beta := (measurable_mymod beta).comp (measurable_fst.const_mul beta)
    have h2 : Measurable fun z : ℝ × ℝ × (ℕ → ℝ) => mymod (mymod (beta * z.1) beta + z.2.1) beta :=
      (measurable_mymod beta).comp (h1.add (measurable_fst.comp measurable_snd))
    exact ((h1.prodMk h2) hA).inter ((measurable_snd.comp measurable_snd) hmT)
  have hev : streams {u | ∃ v w p, Returns (fun fuel => generatePair2 tbl t1 t2 P beta u fuel 0) ([v, w], p) ∧
        v.af = s1 ∧ w.af = s2 ∧ (v.time, w.time) ∈ A ∧ dropS p u ∈ B} =
      streams {u | ∃ k, rejHit P (P 0) beta k (dropS 1 u) ∧ (u 0, beta * u (1 + 2 * k), dropS (1 + (2 * k + 2)) u) ∈ C} := by
    refine measure_congr ?_
    filter_upwards [ae_range] with u hu
    refine propext ?_
    have hmem : ∀ k, (u 0, beta * u (1 + 2 * k), dropS (1 + (2 * k + 2)) u) ∈ C ↔
        (mymod (beta * u 0) beta, mymod (mymod (beta * u 0) beta + beta * u (1 + 2 * k)) beta) ∈ A ∧
        (⌊u (1 + 2 * k + 2) * n1⌋₊ = s1 ∧ ⌊u (1 + 2 * k + 2 + 1) * n2⌋₊ = s2) ∧ dropS (1 + 2 * k + 2 + 2) u ∈ B := by
      intro k
      rw [hCdef, hT, hF1, hF2]
      simp only [mem_setOf_eq, mem_prod, dropS_drop]
      rfl
    constructor
    · rintro ⟨v, w, p, hr, q1, q2, q3, q4⟩
      rw [generatePair2_returns h12 ht hd1 hd2 hb h0 hu, zero_add] at hr
      obtain ⟨k, hk, e⟩ := hr
      refine ⟨k, hk, (hmem k).2 ?_⟩
      unfold pairOf at e
      injection e with e1 e2
      injection e1 with e3 e4
      injection e4 with e4 _
      subst e3 e4 e2
      simp only [← hn1, ← hn2] at q1 q2
      exact ⟨q3, ⟨by exact_mod_cast q1, by exact_mod_cast q2⟩, q4⟩
    · rintro ⟨k, hk, hm⟩
      obtain ⟨q3, ⟨q1, q2⟩, q4⟩ := (hmem k).1 hm
      refine ⟨_, _, _, (generatePair2_returns h12 ht hd1 hd2 hb h0 hu 0 (pairOf tbl t1 t2 beta u 0 (beta * u (0 + 1 + 2 * k)) (0 + 1 + 2 * k + 2))).2
        ⟨k, by rw [zero_add]; exact hk, rfl⟩, ?_, ?_, ?_, ?_⟩
      · simp only [← hn1, zero_add]; exact_mod_cast q1
      · simp only [← hn2, zero_add]; exact_mod_cast q2
      · simp only [zero_add]; exact q3
      · rw [zero_add]; exact q4
  rw [hev, rejection_after hP hb h0 hpos hC]
  obtain ⟨Z, hZ⟩ : ∃ Z, Z = ∫⁻ x in Ico 0 beta, ENNReal.ofReal (P x) := ⟨_, rfl⟩
  rw [← hZ]
  -- the inner integral
  obtain ⟨G, hG⟩ : ∃ G : ℝ → ENNReal, G = fun a => (∫⁻ b in Ico 0 beta, A.indicator 1 (a, b) * ENNReal.ofReal (P (mymod (b - a) beta))) / Z := ⟨_, rfl⟩
  have hGm : Measurable G := by
    rw [hG]
    have h1 : Measurable fun z : ℝ × ℝ => A.indicator (1 : ℝ × ℝ → ENNReal) z * ENNReal.ofReal (P (mymod (z.2 - z.1) beta)) :=
      (measurable_one.indicator hA).mul (hP.comp ((measurable_mymod beta).comp (measurable_snd.sub measurable_fst))).ennreal_ofReal
    exact (Measurable.lintegral_prod_right (ν := volume.restrict (Ico 0 beta)) h1).div_const Z
  have hin : ∀ᵐ r ∂uniform01, (∫⁻ x in Ico 0 beta, ENNReal.ofReal (P x) * streams {w | (r, x, w) ∈ C}) / Z = streams T * G (r * beta) := by
    unfold uniform01
    rw [ae_restrict_iff' measurableSet_Ico]
    refine Filter.Eventually.of_forall fun r hr => ?_
    have hx : beta * r ∈ Ico 0 beta := ⟨mul_nonneg hb.le hr.1, by nlinarith [hr.2]⟩
    have hmm : mymod (beta * r) beta = beta * r := by
      unfold mymod
      rw [if_pos hx.1]
      have : ⌊beta * r / beta⌋₊ = 0 := by
        rw [Nat.floor_eq_zero, div_lt_one hb]
        exact hx.2
      rw [this]; simp
    have h1 : ∀ x : ℝ, streams {w | (r, x, w) ∈ C} = A.indicator 1 (beta * r, mymod (x + beta * r) beta) * streams T := by
      intro x
      rw [hCdef]
      simp only [mem_setOf_eq, hmm, add_comm (beta * r) x]
      by_cases hc : (beta * r, mymod (x + beta * r) beta) ∈ A
      · rw [indicator_of_mem hc, Pi.one_apply, one_mul]
        congr 1
        ext w
        simp only [mem_setOf_eq, hc, true_and]
      · rw [indicator_of_notMem hc, zero_mul]
        rw [show {w : ℕ → ℝ | (beta * r, mymod (x + beta * r) beta) ∈ A ∧ w ∈ T} = ∅ from ?_, measure_empty]
        ext w
        simp only [mem_setOf_eq, hc, false_and, mem_empty_iff_false]
    simp only [h1]
    have h2 := shift_swap hb (h := fun x y => ENNReal.ofReal (P x) * (A.indicator 1 (beta * r, y) * streams T)) (beta * r)
    rw [h2, hG]
    simp only [mul_comm r beta]
    rw [← mul_div_assoc, ← lintegral_const_mul' _ _ (measure_ne_top _ _)]
    congr 1
    refine lintegral_congr fun b => ?_
    ring
  rw [lintegral_congr_ae hin, lintegral_time hb (g := fun x => streams T * G x) (hGm.const_mul _), lintegral_const_mul _ hGm, hTm, hG]
  ring

theorem generatePair2_shift {tbl : List (VDef K)} {t1 t2 : ℕ} (h12 : t1 < t2) (ht : t2 < tbl.length)
    (hd1 : (tbl.getD t1 default).isDensity = false) (hd2 : (tbl.getD t2 default).isDensity = false) (P : ℝ → ℝ) (beta : ℝ)
    (u : ℕ → ℝ) (fuel q p : ℕ) :
    generatePair2 tbl t1 t2 P beta u fuel (q + p) = (generatePair2 tbl t1 t2 P beta (dropS q u) fuel p).shift q := by
  rw [generatePair2_eq h12 ht hd1 hd2, generatePair2_eq h12 ht hd1 hd2, add_assoc, rejection_shift]
  refine Run.shift_bind q _ fun x r => ?_
  show Run.ok _ = Run.ok _
  congr 1

/-- **C71.**  When the pair of types is drawn as well, from a list without repetition, every pair of the list comes up
    with the same probability, and given the types the law is the one of `C71_law`. -/
theorem C71_drawn_types {pairs : List (ℕ × ℕ)} {tbl : List (VDef K)} (hnd : pairs.Nodup)
    (hpairs : ∀ q ∈ pairs, q.1 < q.2 ∧ q.2 < tbl.length ∧ (tbl.getD q.1 default).isDensity = false ∧ (tbl.getD q.2 default).isDensity = false)
    {t1 t2 : ℕ} (hm : (t1, t2) ∈ pairs) (hP : Measurable P) (hb : 0 < beta) (h0 : ∀ x ∈ Ico 0 beta, 0 ≤ P x ∧ P x ≤ P 0)
    (hpos : 0 < ∫⁻ x in Ico 0 beta, ENNReal.ofReal (P x)) {A : Set (ℝ × ℝ)} (hA : MeasurableSet A)
    {B : Set (ℕ → ℝ)} (hB : MeasurableSet B) {s1 s2 : ℕ} (hs1 : s1 < (tbl.getD t1 default).numAf) (hs2 : s2 < (tbl.getD t2 default).numAf) :
    streams {u | ∃ v w p, Returns (fun fuel => genPairInsertion pairs tbl P beta u fuel 0) ([v, w], p) ∧
        v.type = t1 ∧ w.type = t2 ∧ v.af = s1 ∧ w.af = s2 ∧ (v.time, w.time) ∈ A ∧ dropS p u ∈ B} =
      ENNReal.ofReal (1 / pairs.length) * (ENNReal.ofReal (1 / (tbl.getD t1 default).numAf) * ENNReal.ofReal (1 / (tbl.getD t2 default).numAf) *
        (ENNReal.ofReal (1 / beta) * ∫⁻ a in Ico 0 beta, (∫⁻ b in Ico 0 beta, A.indicator 1 (a, b) * ENNReal.ofReal (P (mymod (b - a) beta))) /
          ∫⁻ x in Ico 0 beta, ENNReal.ofReal (P x)) * streams B) := by
  obtain ⟨g1, g2, g3, g4⟩ := hpairs _ hm
  simp only [] at g1 g2 g3 g4
  rw [← C71_law g1 g2 g3 g4 hP hb h0 hpos hA hB hs1 hs2]
  obtain ⟨i, hi, ei⟩ := List.getElem_of_mem hm
  rw [← uniform01_floor hi, ← streams_and]
  refine measure_congr ?_
  filter_upwards [ae_range] with u hu
  refine propext ?_
  have hlen : ⌊(pairs.length : ℝ) * u 0⌋₊ < pairs.length := by
    have := drawn_lt hu (show 0 < pairs.length by omega) 0
    rw [mul_comm]
    exact this
  obtain ⟨j, hj⟩ : ∃ j, j = ⌊(pairs.length : ℝ) * u 0⌋₊ := ⟨_, rfl⟩
  rw [← hj] at hlen
  obtain ⟨f1, f2, f3, f4⟩ := hpairs _ (List.getElem_mem hlen)
  have hgen : ∀ fuel, genPairInsertion pairs tbl P beta u fuel 0 =
      (generatePair2 tbl (pairs[j]).1 (pairs[j]).2 P beta (dropS 1 u) fuel 0).shift 1 := by
    intro fuel
    unfold genPairInsertion
    rw [if_neg (by omega), ← hj, Res.get_of_lt hlen]
    simp only [Run.lift_ok, Run.bind_ok]
    exact generatePair2_shift f1 f2 f3 f4 P beta u fuel 1 0
  have hret : ∀ (vs : List Vert) (p : ℕ), Returns (fun fuel => genPairInsertion pairs tbl P beta u fuel 0) (vs, p) ↔
      ∃ p', p = 1 + p' ∧ Returns (fun fuel => generatePair2 tbl (pairs[j]).1 (pairs[j]).2 P beta (dropS 1 u) fuel 0) (vs, p') := by
    intro vs p
    rw [returns_congr hgen]
    exact Returns.shift
  have hu1 : ∀ k, 0 ≤ dropS 1 u k ∧ dropS 1 u k < 1 := fun k => hu (1 + k)
  constructor
  · rintro ⟨v, w, p, hr, y1, y2, y3, y4, y5, y6⟩
    obtain ⟨p', rfl, hr2⟩ := (hret _ _).1 hr
    have hr' := hr2
    rw [generatePair2_returns f1 f2 f3 f4 hb h0 hu1] at hr'
    obtain ⟨k, _, e⟩ := hr'
    unfold pairOf at e
    injection e with e1 e2
    injection e1 with e3 e4
    injection e4 with e4 _
    have ht : pairs[j] = (t1, t2) := by
      rw [e3] at y1
      rw [e4] at y2
      exact Prod.ext y1 y2
    have hji : j = i := (hnd.getElem_inj_iff).1 (ht.trans ei.symm)
    refine ⟨?_, ?_⟩
    · show ⌊u 0 * pairs.length⌋₊ = i
      rw [mul_comm, ← hj, hji]
    · refine ⟨v, w, p', ?_, y3, y4, y5, ?_⟩
      · rw [ht] at hr2; exact hr2
      · rw [dropS_drop]; exact y6
  · rintro ⟨z1, v, w, p', hr, y3, y4, y5, y6⟩
    have z1' : ⌊u 0 * pairs.length⌋₊ = i := z1
    have hji : j = i := by rw [hj, mul_comm]; exact z1'
    subst hji
    rw [dropS_drop] at y6
    have hr' := hr
    rw [generatePair2_returns g1 g2 g3 g4 hb h0 hu1] at hr'
    obtain ⟨k, _, e⟩ := hr'
    unfold pairOf at e
    injection e with e1 e2
    injection e1 with e3 e4
    injection e4 with e4 _
    refine ⟨v, w, 1 + p', (hret _ _).2 ⟨p', rfl, ?_⟩, by rw [e3], by rw [e4], y3, y4, y5, y6⟩
    rw [ei]; exact hr

/-- **C71**, with the distribution of the code: the times of a pair with given states fall into `A` with probability
    1/(n1 n2) ∫_A (1/beta) P(t2 - t1 mod beta), the density that the acceptance factor of `C37_pairs` is made for. -/
theorem C71_pair_density {tbl : List (VDef K)} {t1 t2 : ℕ} (h12 : t1 < t2) (ht : t2 < tbl.length)
    (hd1 : (tbl.getD t1 default).isDensity = false) (hd2 : (tbl.getD t2 default).isDensity = false)
    {d : PairDist} (hd : d.OK) {A : Set (ℝ × ℝ)} (hA : MeasurableSet A)
    {s1 s2 : ℕ} (hs1 : s1 < (tbl.getD t1 default).numAf) (hs2 : s2 < (tbl.getD t2 default).numAf) :
    streams {u | ∃ v w p, Returns (fun fuel => generatePair2 tbl t1 t2 d.density d.beta u fuel 0) ([v, w], p) ∧
        v.af = s1 ∧ w.af = s2 ∧ (v.time, w.time) ∈ A} =
      ENNReal.ofReal (1 / (tbl.getD t1 default).numAf) * ENNReal.ofReal (1 / (tbl.getD t2 default).numAf) *
        ∫⁻ a in Ico 0 d.beta, ∫⁻ b in Ico 0 d.beta, A.indicator 1 (a, b) * ENNReal.ofReal (1 / d.beta * d.density (mymod (b - a) d.beta)) := by
  have h := C71_law h12 ht hd1 hd2 (density_continuous d).measurable hd.beta (density_bounds hd)
    (by rw [density_lintegral hd]; exact one_pos) hA (B := univ) MeasurableSet.univ hs1 hs2
  simp only [mem_univ, and_true, measure_univ, mul_one, density_lintegral hd, div_one] at h
  rw [h, ← lintegral_const_mul' _ _ ENNReal.ofReal_ne_top]
  congr 1
  refine lintegral_congr fun a => ?_
  rw [← lintegral_const_mul' _ _ ENNReal.ofReal_ne_top]
  refine lintegral_congr fun b => ?_
  rw [ENNReal.ofReal_mul (by have := hd.beta; positivity)]
  ring

end law

/-- Two exchange terms, with two and three states. -/
noncomputable def exPairTbl : List (VDef ℝ) :=
  [⟨2, [0, 1], [0, 1, 1, 0], 2, 1, fun _ _ => 1 / 2⟩, ⟨2, [0, 1], [1, 0, 0, 1], 3, 1, fun _ _ => 1 / 2⟩]

/-- The hypotheses of `C71_drawn_types` (and with it of `C71_law`) hold for these terms and the density of the code. -/
example {A : Set (ℝ × ℝ)} (hA : MeasurableSet A) :
    streams {u | ∃ v w p, Returns (fun fuel => genPairInsertion [(0, 1)] exPairTbl (PairDist.mk 3 (1 / 2) 10).density 10 u fuel 0) ([v, w], p) ∧
        v.type = 0 ∧ w.type = 1 ∧ v.af = (1 : ℕ) ∧ w.af = (2 : ℕ) ∧ (v.time, w.time) ∈ A ∧ dropS p u ∈ univ} =
      ENNReal.ofReal (1 / ([(0, 1)] : List (ℕ × ℕ)).length) * (ENNReal.ofReal (1 / (2 : ℕ)) * ENNReal.ofReal (1 / (3 : ℕ)) *
        (ENNReal.ofReal (1 / 10) * ∫⁻ a in Ico 0 10, (∫⁻ b in Ico 0 10, A.indicator 1 (a, b) *
          ENNReal.ofReal ((PairDist.mk 3 (1 / 2) 10).density (mymod (b - a) 10))) /
          ∫⁻ x in Ico 0 10, ENNReal.ofReal ((PairDist.mk 3 (1 / 2) 10).density x)) * streams univ) := by
  have hd : (PairDist.mk 3 (1 / 2) 10).OK := ⟨by norm_num, by norm_num, by norm_num⟩
  exact C71_drawn_types (tbl := exPairTbl) (by simp)
    (by intro q hq; rw [List.mem_singleton] at hq; subst hq; exact ⟨by decide, by decide, rfl, rfl⟩) (by simp)
    (density_continuous _).measurable (by norm_num) (density_bounds hd) (lt_of_lt_of_eq one_pos (density_lintegral hd).symm) hA MeasurableSet.univ
    (show 1 < 2 by omega) (show 2 < 3 by omega)

/-- A list with a pair that is not ascending, or with a density term, meets the hypotheses of the two failures once the
    first trial of the distance is accepted. -/
example : rejection (fun _ => (1 : ℝ)) 1 10 (fun _ => 1 / 2) 1 1 = .ok (5, 3) := by
  unfold rejection
  simp only []
  rw [Run.assert_true (by norm_num), Run.bind_ok, if_pos (by norm_num)]
  norm_num

end CTInt
