import Verif.Proofs.EnsembleFinite
import Verif.Proofs.TableG0
import Verif.Props.SpinFlip

/-!
# C64: the updates leave the ensemble of configurations invariant
-/

set_option linter.all false

namespace CTInt

open MeasureTheory Set

variable {K : Type} [RCLike K] [DecidableEq K]
variable {c : Ctx K}

/-- **C64.**  Draw a configuration with at most `maxOrder` vertices with the stationary density, 1/n! times the modulus of
    its weight, shared equally between the states of the auxiliary fields, and let any sequence of updates follow
    (insertions and removals, shifts, spin flips, recomputations), with independent random numbers uniform in [0,1): the
    configuration is distributed as before.  `obj x` is any object that the program can have and that holds the
    configuration `x`; for configurations with weight 0 there is none, and none is needed.  `Y` is any measurable set of
    configurations that does not depend on the order in which the vertices are stored. -/
theorem C64_stationary (ht : TblOK c.NI c.nf c.tbl) (hf : FullTerms c) (hT : c.tbl ≠ []) (hG : MeasurableG0 c.G0)
    {beta : ℝ} (hb : 0 < beta) {kIns maxOrder : ℕ} {sz : ℝ} {m : Mgr} (hm : m = Mgr.create beta kIns maxOrder sz c.tbl)
    (obj : List Pt → Sub K)
    (hobj : ∀ x, ValidPts beta c.tbl x → x.length ≤ maxOrder → weight c.NI c.nf c.G0 c.tbl (x.map vertAt) ≠ 0 →
      ReachedBy m c (obj x) ∧ ptsOf (obj x).verts = x)
    (l : List Upd) (st : AccStat) (J : ℕ → ℕ → ℕ → ℕ → ℕ → ℕ → K) {Y : Set (List Pt)}
    (hY : ∀ n, MeasurableSet {x : Fin n → Pt | List.ofFn x ∈ Y}) (hsym : ∀ x y : List Pt, x.Perm y → (x ∈ Y ↔ y ∈ Y)) :
    ensemble c beta maxOrder (fun x =>
        streams {u | ∃ y, Returns (fun fuel => (⟨obj x, st, 0⟩ : Walker K).run m c J u fuel l) y ∧ ptsOf y.s.verts ∈ Y}) =
      ensemble c beta maxOrder (Y.indicator 1) := by
  classical
  obtain ⟨A, h1, h2⟩ := simRun_law hf hT hG hb hm l
  have hYm : MeasurableSet Y := measurableSet_list hY
  have hn : Nice (Y.indicator (1 : List Pt → ENNReal)) := by
    refine ⟨measurable_one.indicator hYm, fun x y h => ?_⟩
    unfold Set.indicator
    by_cases hx : x ∈ Y
    · rw [if_pos hx, if_pos ((hsym x y h).1 hx)]
      rfl
    · rw [if_neg hx, if_neg fun q => hx ((hsym x y h).2 q)]
  rw [← (h2 _ hn).2]
  unfold ensemble
  refine Finset.sum_congr rfl fun n hnM => ?_
  congr 1
  refine lintegral_congr_ae ?_
  filter_upwards [ae_validPts beta c.tbl n] with x hx
  by_cases hw : weight c.NI c.nf c.G0 c.tbl ((List.ofFn x).map vertAt) = 0
  · have : density c (List.ofFn x) = 0 := by
      unfold density target
      rw [hw]
      simp
    rw [this, zero_mul, zero_mul]
  · obtain ⟨q1, q2⟩ := hobj (List.ofFn x) hx (by rw [List.length_ofFn]; have := Finset.mem_range.1 hnM; omega) hw
    obtain ⟨a, a1, a2⟩ := q1.means ht hf hm
    rw [run_law_pts ht hf hT hm (x := List.ofFn x) ⟨a, a1, a2, by rw [← a1.cfg, q2]⟩ st J l hYm h1]

theorem ptsOf_numbered (k : ℕ) (vs : List Vert) : ptsOf (numbered k vs) = ptsOf vs := by
  induction vs generalizing k with
  | nil => rfl
  | cons v vs ih =>
    have := ih (k + 1)
    unfold ptsOf at this ⊢
    rw [numbered, List.map_cons, List.map_cons, this]
    rfl

theorem ptsOf_vertAt (x : List Pt) : ptsOf (x.map vertAt) = x := by
  unfold ptsOf
  rw [List.map_map]
  have : ptOf ∘ vertAt = id := by
    funext p
    unfold ptOf vertAt
    simp
  rw [this, List.map_id]

theorem numbered_int (k : ℕ) {vs : List Vert} (h : ∀ v ∈ vs, v.nonInt = false) : ∀ v ∈ numbered k vs, v.nonInt = false := by
  induction vs generalizing k with
  | nil => intro v hv; cases hv
  | cons w vs ih =>
    intro v hv
    rw [numbered] at hv
    rcases List.mem_cons.1 hv with rfl | hv
    · exact h w (by simp)
    · exact ih (k + 1) (fun v hv => h v (List.mem_cons_of_mem _ hv)) v hv

/-- **C64.**  Objects as assumed in `C64_stationary` exist: the constructor makes them. -/
theorem C64_objects (ht : TblOK c.NI c.nf c.tbl) (m : Mgr) (beta : ℝ) :
    ∃ obj : List Pt → Sub K, ∀ x, ValidPts beta c.tbl x → weight c.NI c.nf c.G0 c.tbl (x.map vertAt) ≠ 0 →
      ReachedBy m c (obj x) ∧ ptsOf (obj x).verts = x := by
  have key : ∀ x, ValidPts beta c.tbl x → weight c.NI c.nf c.G0 c.tbl (x.map vertAt) ≠ 0 →
      ∃ s, ReachedBy m c s ∧ ptsOf s.verts = x := by
    intro x hx hw
    have hint : ∀ v ∈ x.map vertAt, v.nonInt = false := by
      intro v hv
      obtain ⟨p, -, rfl⟩ := List.mem_map.1 hv
      rfl
    have hs : GoodStart c.NI c.nf c.G0 c.tbl (x.map vertAt) := by
      refine ⟨hint, ?_, ?_⟩
      · intro v hv
        obtain ⟨p, hp, rfl⟩ := List.mem_map.1 hv
        obtain ⟨h1, h2, -⟩ := hx p hp
        refine ⟨h1, fun _ => ⟨Int.natCast_nonneg _, ?_⟩⟩
        show ((p.2.1 : ℕ) : ℤ) < ((termOf c.tbl (vertAt p)).numAf : ℤ)
        exact_mod_cast h2
      · rw [← wt_ptsOf, interacting_all (numbered_int 0 hint), ptsOf_numbered, ptsOf_vertAt]
        exact hw
    obtain ⟨s, e, m0⟩ := create_means ht hs
    refine ⟨s, ⟨_, s, ⟨0, 0⟩, 0, fun _ _ _ _ _ _ => 0, fun _ => 0, 0, [], ⟨s, ⟨0, 0⟩, 0⟩, hs, fun _ => ⟨le_rfl, one_pos⟩, e, rfl, rfl⟩, ?_⟩
    rw [m0.cfg]
    show ptsOf (numbered 0 _) = x
    rw [ptsOf_numbered, ptsOf_vertAt]
  classical
  refine ⟨fun x => if h : ValidPts beta c.tbl x ∧ weight c.NI c.nf c.G0 c.tbl (x.map vertAt) ≠ 0 then
    (key x h.1 h.2).choose else (create_means ht (empty_goodStart c)).choose, fun x hx hw => ?_⟩
  simp only [dif_pos (And.intro hx hw)]
  exact (key x hx hw).choose_spec

/-- **C64.**  The ensemble can be normalised: with a bounded bare Green function the partition function is finite, and it is
    never less than 1, the weight of the configuration without vertices. -/
theorem C64_normalised {B : ℝ} (hB : ∀ a b, ‖c.G0 a b‖ ≤ B) (beta : ℝ) (maxOrder : ℕ) :
    1 ≤ ensemble c beta maxOrder 1 ∧ ensemble c beta maxOrder 1 < ⊤ :=
  ⟨one_le_ensemble c beta maxOrder, ensemble_lt_top hB maxOrder⟩

/-- **C64.**  With probabilities: if the configuration is drawn from the normalised ensemble, then after any sequence of
    updates it is in `Y` with the probability that the ensemble gives to `Y`, and the updates return a configuration with
    probability 1. -/
theorem C64_probability (ht : TblOK c.NI c.nf c.tbl) (hf : FullTerms c) (hT : c.tbl ≠ []) (hG : MeasurableG0 c.G0)
    {B : ℝ} (hB : ∀ a b, ‖c.G0 a b‖ ≤ B)
    {beta : ℝ} (hb : 0 < beta) {kIns maxOrder : ℕ} {sz : ℝ} {m : Mgr} (hm : m = Mgr.create beta kIns maxOrder sz c.tbl)
    (obj : List Pt → Sub K)
    (hobj : ∀ x, ValidPts beta c.tbl x → x.length ≤ maxOrder → weight c.NI c.nf c.G0 c.tbl (x.map vertAt) ≠ 0 →
      ReachedBy m c (obj x) ∧ ptsOf (obj x).verts = x)
    (l : List Upd) (st : AccStat) (J : ℕ → ℕ → ℕ → ℕ → ℕ → ℕ → K) :
    (∀ Y : Set (List Pt), (∀ n, MeasurableSet {x : Fin n → Pt | List.ofFn x ∈ Y}) →
      (∀ x y : List Pt, x.Perm y → (x ∈ Y ↔ y ∈ Y)) →
      ensemble c beta maxOrder (fun x =>
        streams {u | ∃ y, Returns (fun fuel => (⟨obj x, st, 0⟩ : Walker K).run m c J u fuel l) y ∧ ptsOf y.s.verts ∈ Y}) /
          ensemble c beta maxOrder 1 =
        ensemble c beta maxOrder (Y.indicator 1) / ensemble c beta maxOrder 1) ∧
    ensemble c beta maxOrder (fun x =>
        streams {u | ∃ y, Returns (fun fuel => (⟨obj x, st, 0⟩ : Walker K).run m c J u fuel l) y}) /
          ensemble c beta maxOrder 1 = 1 := by
  constructor
  · intro Y hY hsym
    rw [C64_stationary ht hf hT hG hb hm obj hobj l st J hY hsym]
  · have h := C64_stationary ht hf hT hG hb hm obj hobj l st J (Y := Set.univ) (by intro n; simp) (by intro x y _; simp)
    simp only [Set.mem_univ, and_true, Set.indicator_univ] at h
    rw [h]
    obtain ⟨h1, h2⟩ := C64_normalised hB beta maxOrder
    exact ENNReal.div_self (by intro h0; rw [h0] at h1; simp at h1) h2.ne

/-- **C64.**  What the theorems assume of the bare Green function holds for the one of the code: for a table of at least two
    points the call with two operators returns a function of them that is measurable in the times and bounded. -/
theorem C64_table (g : Green K) (hT : 2 ≤ g.ntau) (hβ : 0 < g.beta)
    (hd : g.dtau = g.beta / ((g.ntau : ℝ) - 1)) (hi : g.invDtau = 1 / g.dtau) :
    ∃ G0 : Op → Op → K, MeasurableG0 G0 ∧ (∃ B, ∀ a b, ‖G0 a b‖ ≤ B) ∧
      ∀ a b : Op, a.flavor = b.flavor → a.flavor < g.nf → a.site < g.ns → b.site < g.ns →
        ∃ N, ∀ fuel, N ≤ fuel → g.ofOps fuel a b = .ok (G0 a b) := by
  refine ⟨g.g0in, g.measurable_g0in, ⟨_, g.g0in_le⟩, fun a b hab hf h1 h2 => ?_⟩
  obtain ⟨N, h⟩ := C42_operators g hβ a b hab (g.valAt a.flavor a.site b.site) (g.contAt a.flavor a.site b.site)
    (fun t h0 hb => g.interpolate_valAt hT hβ hd hi hf h1 h2 t h0 hb) (g.contAt_antiperiodic hβ _ _ _)
  refine ⟨N, fun fuel hfuel => ?_⟩
  rw [h fuel hfuel]
  have : g.g0in a b = g.g0 a b := by
    unfold Green.g0in
    rw [if_pos (show a.flavor < g.nf ∧ a.site < g.ns ∧ b.site < g.ns from ⟨hf, h1, h2⟩)]
  rw [this]
  unfold Green.g0
  congr

/-- A table that is not constant. -/
example : ∃ G0 : Op → Op → ℝ, MeasurableG0 G0 ∧ (∃ B, ∀ a b, ‖G0 a b‖ ≤ B) ∧
    ∀ a b : Op, a.flavor = 0 → b.flavor = 0 → a.site = 0 → b.site = 0 → ∃ N, ∀ fuel, N ≤ fuel → exGreen.ofOps fuel a b = .ok (G0 a b) := by
  obtain ⟨G0, h1, h2, h3⟩ := C64_table exGreen (by norm_num [exGreen]) (by norm_num [exGreen]) (by norm_num [exGreen])
    (by norm_num [exGreen])
  exact ⟨G0, h1, h2, fun a b q1 q2 q3 q4 => h3 a b (by rw [q1, q2]) (by rw [q1]; norm_num [exGreen])
    (by rw [q3]; norm_num [exGreen]) (by rw [q4]; norm_num [exGreen])⟩

/-! Concrete cases. -/

theorem ex_measurable1 : MeasurableG0 exCtx1.G0 := fun _ _ _ _ _ _ => measurable_const

theorem ex_bound1 : ∀ a b, ‖exCtx1.G0 a b‖ ≤ 1 := by
  intro a b
  show ‖(1 / 2 : ℝ)‖ ≤ 1
  norm_num

/-- The hypotheses are met by an object that goes through insertions, removals, shifts, spin flips and recomputations. -/
example (l : List Upd) (u0 : AccStat) (J : ℕ → ℕ → ℕ → ℕ → ℕ → ℕ → ℝ) :
    ∃ obj : List Pt → Sub ℝ,
      ensemble exCtx1 1 7 (fun x => streams {u | ∃ y, Returns (fun fuel =>
        (⟨obj x, u0, 0⟩ : Walker ℝ).run (Mgr.create 1 3 7 1 exCtx1.tbl) exCtx1 J u fuel l) y}) / ensemble exCtx1 1 7 1 = 1 := by
  obtain ⟨obj, h⟩ := C64_objects ex_tbl1 (Mgr.create 1 3 7 1 exCtx1.tbl) 1
  exact ⟨obj, (C64_probability ex_tbl1 ex_full1 (by simp [exCtx1]) ex_measurable1 ex_bound1 one_pos rfl obj
    (fun x h1 _ h2 => h x h1 h2) l u0 J).2⟩

/-- The ensemble is not trivial: with one term, whose two states of the auxiliary field have weight 1, and beta 1, the
    configurations with one vertex weigh as much as the empty configuration. -/
example : ensemble exCtx1 1 3 ({x : List Pt | x.length = 1}.indicator 1) = 1 := by
  unfold ensemble
  rw [Finset.sum_eq_single 1]
  · have : ∫⁻ x : Fin 1 → Pt, density exCtx1 (List.ofFn x) * ({x : List Pt | x.length = 1}.indicator 1) (List.ofFn x)
        ∂Measure.pi (fun _ => pointMeasure 1 exCtx1.tbl) =
        ∫⁻ x : Fin 1 → Pt, ENNReal.ofReal (1 / 2) ∂Measure.pi (fun _ => pointMeasure 1 exCtx1.tbl) := by
      refine lintegral_congr_ae ?_
      filter_upwards [ae_validPts 1 exCtx1.tbl 1] with x hx
      rw [Set.indicator_of_mem (by simp), Pi.one_apply, mul_one, density_eq]
      rw [show List.ofFn x = [x 0] by simp] at hx ⊢
      obtain ⟨h1, h2, -⟩ := hx (x 0) (by simp)
      have h1 : (x 0).1 = 0 := by simpa [exCtx1] using h1
      have hn : numStates exCtx1.tbl (x 0).1 = 2 := by rw [h1]; rfl
      rw [hn] at h2
      have hw : wt exCtx1 [x 0] = 1 := by
        show weight _ _ _ _ [vertAt (x 0)] = 1
        rcases (by omega : (x 0).2.1 = 0 ∨ (x 0).2.1 = 1) with h | h
        · exact ex_weight1 (v := vertAt (x 0)) h1 rfl (by show (((x 0).2.1 : ℕ) : ℤ) = 0; rw [h]; rfl)
        · exact ex_weight1' (v := vertAt (x 0)) h1 rfl (by show (((x 0).2.1 : ℕ) : ℤ) = 1; rw [h]; rfl)
      rw [hw]
      simp [stateProd, hn]
    rw [this, lintegral_const, Measure.pi_univ]
    have hp : pointMeasure 1 exCtx1.tbl Set.univ = 2 := by
      have := lintegral_point (beta := 1) (tbl := exCtx1.tbl) (g := fun _ => 1) measurable_const
      rw [lintegral_one] at this
      rw [this]
      simp [exCtx1, exTerm1, numStates]
    rw [Finset.prod_const, hp]
    simp [ENNReal.inv_mul_cancel]
  · intro n _ hn
    have : ∀ x : Fin n → Pt, density exCtx1 (List.ofFn x) * ({x : List Pt | x.length = 1}.indicator 1) (List.ofFn x) = 0 := by
      intro x
      rw [Set.indicator_of_notMem (by simpa using hn), mul_zero]
    simp only [this]
    simp
  · simp

end CTInt
