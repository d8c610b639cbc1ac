import Verif.Proofs.Absorb
import Verif.Proofs.Centre
import Verif.Spec.Converge
import Mathlib.Analysis.SpecificLimits.Basic

/-!
# C72: the simulation forgets where it started
-/

set_option linter.all false

namespace CTInt

open MeasureTheory Set

variable {K : Type} [RCLike K] [DecidableEq K]
variable {c : Ctx K}

theorem ReachedBy.live (ht : TblOK c.NI c.nf c.tbl) (hf : FullTerms c) {beta : ℝ} {kIns maxOrder : ℕ} {sz : ℝ}
    {m : Mgr} (hm : m = Mgr.create beta kIns maxOrder sz c.tbl) {s : Sub K} (h : ReachedBy m c s)
    (hv : ValidPts beta c.tbl (ptsOf s.verts)) (hn : s.verts.length ≤ maxOrder) :
    At c s (ptsOf s.verts) ∧ ptsOf s.verts ∈ Live c beta maxOrder := by
  obtain ⟨a, a1, a2⟩ := h.means ht hf hm
  refine ⟨⟨a, a1, a2, by rw [← a1.cfg]⟩, hv, by unfold ptsOf; rw [List.length_map]; exact hn, ?_⟩
  have h1 := a1.weight_ne_zero ht
  rw [← wt_ptsOf, ← a1.cfg, interacting_all (a1.cl a2).int] at h1
  exact h1

theorem canShrink_down {beta : ℝ} {M : ℕ} {a : ℝ} (h : CanShrink c beta M a) : Down c beta M a :=
  fun x hx hne => h x hx.1 hx.2.1 hne hx.2.2

theorem ensVal_indicator {B : ℝ} (hB : ∀ a b, ‖c.G0 a b‖ ≤ B) (hG : MeasurableG0 c.G0) (beta : ℝ) (M : ℕ) {Y : Set (List Pt)}
    (hY : MeasurableSet Y) : ensVal c beta M (Y.indicator 1) = (ensemble c beta M (Y.indicator 1) / ensemble c beta M 1).toReal := by
  have hg : Measurable (Y.indicator (1 : List Pt → ℝ)) := measurable_one.indicator hY
  have h1 : ∀ x, |Y.indicator (1 : List Pt → ℝ) x| ≤ 1 := fun x => by by_cases h : x ∈ Y <;> simp [h]
  obtain ⟨f1, f2⟩ := ensVal_shift (c := c) (beta := beta) (M := M) hB hG hg h1
  have hZ := ensemble_lt_top (beta := beta) hB M
  have hZ1 := one_le_ensemble c beta M
  have hZ0 : (ensemble c beta M 1).toReal ≠ 0 := (ENNReal.toReal_pos (by intro h; rw [h] at hZ1; simp at hZ1) hZ.ne).ne'
  have e : (fun x => ENNReal.ofReal (Y.indicator (1 : List Pt → ℝ) x + 1)) = fun x => Y.indicator (1 : List Pt → ENNReal) x + 1 := by
    funext x
    by_cases h : x ∈ Y
    · simp only [Set.indicator_of_mem h, Pi.one_apply]
      rw [ENNReal.ofReal_add zero_le_one zero_le_one, ENNReal.ofReal_one]
    · simp [Set.indicator_of_notMem h]
  have hle : ensemble c beta M (Y.indicator 1) ≤ ensemble c beta M 1 := ensemble_mono_live fun x _ => by
    by_cases h : x ∈ Y <;> simp [h]
  rw [e, ensemble_add hG (measurable_one.indicator hY), ensemble_const 1 ENNReal.one_ne_top, one_mul,
    ENNReal.toReal_add (lt_of_le_of_lt hle hZ).ne hZ.ne, add_mul, one_mul] at f2
  rw [ENNReal.toReal_div, eq_div_iff hZ0]
  linarith

/-- **C72.**  Start the program from any object it can have, with any usable configuration of at most `maxOrder` vertices, and
    repeat any sequence of updates that contains insertions and removals.  Assume that from every configuration some vertex
    can be removed at a bounded cost of weight.  Then the law of the configuration approaches the normalised ensemble, and
    the distance falls at least geometrically in the number of repetitions; `r` and `δ` do not depend on the start, on the
    set `Y` of configurations, or on the uninitialised memory `J`. -/
theorem C72_converge (ht : TblOK c.NI c.nf c.tbl) (hf : FullTerms c) (hT : c.tbl ≠ []) (hG : MeasurableG0 c.G0)
    {B : ℝ} (hB : ∀ a b, ‖c.G0 a b‖ ≤ B)
    {beta : ℝ} (hb : 0 < beta) {kIns maxOrder : ℕ} (hk : 0 < kIns) {sz : ℝ} {m : Mgr} (hm : m = Mgr.create beta kIns maxOrder sz c.tbl)
    {a : ℝ} (ha : 0 < a) (hs : CanShrink c beta maxOrder a) {l : List Upd} (hl : Upd.insRem ∈ l) :
    ∃ r : ℕ, 0 < r ∧ ∃ δ : ℝ, 0 < δ ∧ δ ≤ 1 ∧
      ∀ (s : Sub K) (st : AccStat) (J : ℕ → ℕ → ℕ → ℕ → ℕ → ℕ → K), ReachedBy m c s → ValidPts beta c.tbl (ptsOf s.verts) →
        s.verts.length ≤ maxOrder →
        ∀ Y : Set (List Pt), (∀ n, MeasurableSet {x : Fin n → Pt | List.ofFn x ∈ Y}) →
          (∀ x y : List Pt, x.Perm y → (x ∈ Y ↔ y ∈ Y)) → ∀ n : ℕ,
          |(streams {u | ∃ y, Returns (fun fuel => (⟨s, st, 0⟩ : Walker K).run m c J u fuel (sweeps n l)) y ∧ ptsOf y.s.verts ∈ Y}).toReal -
            (ensemble c beta maxOrder (Y.indicator 1) / ensemble c beta maxOrder 1).toReal| ≤ (1 - δ) ^ (n / r) := by
  have hR := simRun_renews hf hT hG hb hk hm ha (canShrink_down hs) hl
  refine ⟨_, hR.rpos, _, hR.pos, hR.le_one, ?_⟩
  intro s st J h1 h2 h3 Y hY hsym n
  have hYm : MeasurableSet Y := measurableSet_list hY
  obtain ⟨hAt, hL⟩ := h1.live ht hf hm h2 h3
  obtain ⟨A, hA, -⟩ := simRun_law hf hT hG hb hm (sweeps n l)
  have hKE : KeepsEnsemble c beta maxOrder (simRun m c l) := ⟨simRun_law hf hT hG hb hm l⟩
  have hg : Measurable (Y.indicator (1 : List Pt → ℝ)) := measurable_one.indicator hYm
  have hb1 : ∀ x, |Y.indicator (1 : List Pt → ℝ) x| ≤ 1 := fun x => by by_cases h : x ∈ Y <;> simp [h]
  have hb2 : ∀ x ∈ Live c beta maxOrder, 0 ≤ Y.indicator (1 : List Pt → ℝ) x ∧ Y.indicator (1 : List Pt → ℝ) x ≤ 1 :=
    fun x _ => by by_cases h : x ∈ Y <;> simp [h]
  have hgs : ∀ x y : List Pt, x.Perm y → Y.indicator (1 : List Pt → ℝ) x = Y.indicator 1 y := by
    intro x y h
    by_cases hx : x ∈ Y
    · simp [hx, (hsym x y h).1 hx]
    · rw [Set.indicator_of_notMem hx, Set.indicator_of_notMem fun q => hx ((hsym x y h).2 q)]
  have key := hR.converge hg hb1 hb2 (hKE.centre hB hG hg hb1 hgs) n hL
  rw [ensVal_indicator hB hG beta maxOrder hYm, sub_zero, mul_one] at key
  rw [run_law_pts ht hf hT hm hAt st J (sweeps n l) hYm hA, ← hA.prob hYm]
  have e : meanAfter (simRun m c l) n (Y.indicator 1) (ptsOf s.verts) =
      (streams {u | (simRun m c (sweeps n l) (ptsOf s.verts, u)).1 ∈ Y}).toReal := by
    unfold meanAfter after
    rw [simRun_repeat]
    have hE : MeasurableSet {u : ℕ → ℝ | (simRun m c (sweeps n l) (ptsOf s.verts, u)).1 ∈ Y} := (fst_meas hA.meas _) hYm
    have : (fun u => Y.indicator (1 : List Pt → ℝ) (simRun m c (List.replicate n l).flatten (ptsOf s.verts, u)).1) =
        {u : ℕ → ℝ | (simRun m c (sweeps n l) (ptsOf s.verts, u)).1 ∈ Y}.indicator 1 := rfl
    rw [this, integral_indicator_one hE]
    rfl
  rw [← e]
  exact key

/-- **C72.**  In particular the probabilities converge to those of the ensemble. -/
theorem C72_limit (ht : TblOK c.NI c.nf c.tbl) (hf : FullTerms c) (hT : c.tbl ≠ []) (hG : MeasurableG0 c.G0)
    {B : ℝ} (hB : ∀ a b, ‖c.G0 a b‖ ≤ B)
    {beta : ℝ} (hb : 0 < beta) {kIns maxOrder : ℕ} (hk : 0 < kIns) {sz : ℝ} {m : Mgr} (hm : m = Mgr.create beta kIns maxOrder sz c.tbl)
    {a : ℝ} (ha : 0 < a) (hs : CanShrink c beta maxOrder a) {l : List Upd} (hl : Upd.insRem ∈ l)
    {s : Sub K} (h1 : ReachedBy m c s) (h2 : ValidPts beta c.tbl (ptsOf s.verts)) (h3 : s.verts.length ≤ maxOrder)
    (st : AccStat) (J : ℕ → ℕ → ℕ → ℕ → ℕ → ℕ → K) {Y : Set (List Pt)}
    (hY : ∀ n, MeasurableSet {x : Fin n → Pt | List.ofFn x ∈ Y}) (hsym : ∀ x y : List Pt, x.Perm y → (x ∈ Y ↔ y ∈ Y)) :
    Filter.Tendsto (fun n : ℕ => (streams {u | ∃ y, Returns (fun fuel =>
        (⟨s, st, 0⟩ : Walker K).run m c J u fuel (sweeps n l)) y ∧ ptsOf y.s.verts ∈ Y}).toReal) Filter.atTop
      (nhds (ensemble c beta maxOrder (Y.indicator 1) / ensemble c beta maxOrder 1).toReal) := by
  obtain ⟨r, hr, δ, hδ, hδ1, h⟩ := C72_converge ht hf hT hG hB hb hk hm ha hs hl
  rw [tendsto_iff_norm_sub_tendsto_zero]
  refine squeeze_zero (fun n => norm_nonneg _) (fun n => h s st J h1 h2 h3 Y hY hsym n) ?_
  exact (tendsto_pow_atTop_nhds_zero_of_lt_one (by linarith) (by linarith)).comp (Nat.tendsto_div_const_atTop hr.ne')

/-- **C72.**  The assumption cannot be dropped.  If no vertex alone has weight (for instance if the parameter α equals the
    density at half filling) then the empty configuration is never left, whatever the updates and however many. -/
theorem C72_stuck (ht : TblOK c.NI c.nf c.tbl) (hf : FullTerms c) (hT : c.tbl ≠ []) (hG : MeasurableG0 c.G0)
    {beta : ℝ} (hb : 0 < beta) {kIns maxOrder : ℕ} {sz : ℝ} {m : Mgr} (hm : m = Mgr.create beta kIns maxOrder sz c.tbl)
    (h0 : ∀ v : Pt, ValidPts beta c.tbl [v] → weight c.NI c.nf c.G0 c.tbl [vertAt v] = 0)
    {s : Sub K} (h1 : ReachedBy m c s) (h2 : s.verts = []) (st : AccStat) (J : ℕ → ℕ → ℕ → ℕ → ℕ → ℕ → K) (l : List Upd) :
    streams {u | ∃ y, Returns (fun fuel => (⟨s, st, 0⟩ : Walker K).run m c J u fuel l) y ∧ y.s.verts = []} = 1 := by
  obtain ⟨A, hA, h3⟩ := simRun_nil hf hT hG hb hm (fun v hv => h0 v hv) l
  obtain ⟨hAt, hL⟩ := h1.live ht hf hm (by rw [h2]; intro p hp; simp [ptsOf] at hp) (by rw [h2]; simp)
  have hx : ptsOf s.verts = [] := by rw [h2]; rfl
  rw [hx] at hAt
  have e := run_law_pts ht hf hT hm hAt st J l measurable_empty hA
  have hset : {u | ∃ y, Returns (fun fuel => (⟨s, st, 0⟩ : Walker K).run m c J u fuel l) y ∧ y.s.verts = []} =
      {u | ∃ y, Returns (fun fuel => (⟨s, st, 0⟩ : Walker K).run m c J u fuel l) y ∧ ptsOf y.s.verts ∈ ({[]} : Set (List Pt))} := by
    ext u
    simp [ptsOf]
  rw [hset, e, ← hA.prob measurable_empty]
  have hc := measurable_empty.compl
  have hn := nice_indicator hc fun x y h => not_congr (by
    constructor
    · rintro rfl; simpa using h
    · rintro rfl; simpa using h)
  have hz := (h3 _ hn).2 (by simp)
  rw [← hA.prob hc] at hz
  have hE : MeasurableSet {u : ℕ → ℝ | (simRun m c l ([], u)).1 ∈ ({[]} : Set (List Pt))} := (fst_meas hA.meas _) measurable_empty
  have hz' : streams {u : ℕ → ℝ | (simRun m c l ([], u)).1 ∈ ({[]} : Set (List Pt))}ᶜ = 0 := hz
  exact (prob_compl_eq_zero_iff hE).1 hz'

/-- **C72.**  The assumption of `C72_converge` holds if the weights of the configurations with fewer than `M` vertices stay
    away from 0. -/
theorem C72_bounded_below {B : ℝ} (hB : ∀ a b, ‖c.G0 a b‖ ≤ B) (beta : ℝ) (M : ℕ) {w : ℝ} (hw : 0 < w)
    (h : ∀ x, ValidPts beta c.tbl x → x.length < M → w ≤ ‖weight c.NI c.nf c.G0 c.tbl (x.map vertAt)‖) :
    ∃ a, 0 < a ∧ CanShrink c beta M a := by
  obtain ⟨W, hW⟩ : ∃ W : ℕ → ℝ, ∀ x, ValidPts beta c.tbl x → ‖wt c x‖ ≤ W x.length :=
    ⟨fun n => ((n * rankBound c.tbl).factorial * (1 + B + alphaBound c.tbl) ^ (n * rankBound c.tbl)) ^ c.nf * uBound c.tbl ^ n,
      fun x hx => wt_le hB hx⟩
  set T : ℝ := 1 + ∑ n ∈ Finset.range (M + 1), |W n| with hT
  have hT0 : 0 < T := by positivity
  refine ⟨w / T, by positivity, fun x hx hn hne hw0 => ⟨0, List.length_pos_iff.2 hne, ?_⟩⟩
  have h1 : ‖weight c.NI c.nf c.G0 c.tbl (x.map vertAt)‖ ≤ T := by
    refine (hW x hx).trans ((le_abs_self _).trans ?_)
    have := Finset.single_le_sum (f := fun n => |W n|) (fun _ _ => abs_nonneg _) (Finset.mem_range.2 (by omega : x.length < M + 1))
    linarith
  have hl : 0 < x.length := List.length_pos_iff.2 hne
  have h2 := h (x.eraseIdx 0) (validPts_erase hx 0) (by rw [List.length_eraseIdx_of_lt hl]; omega)
  refine le_trans ?_ h2
  rw [div_mul_eq_mul_div, div_le_iff₀ hT0]
  exact mul_le_mul_of_nonneg_left h1 hw.le

/-! Concrete cases. -/

theorem ex_single1 {v : Pt} (hv : ValidPts 1 exCtx1.tbl [v]) : weight exCtx1.NI exCtx1.nf exCtx1.G0 exCtx1.tbl [vertAt v] = 1 := by
  obtain ⟨h1, h2, -⟩ := hv v (by simp)
  have h1 : v.1 = 0 := by simpa [exCtx1] using h1
  have hn : numStates exCtx1.tbl v.1 = 2 := by rw [h1]; rfl
  rw [hn] at h2
  rcases (by omega : v.2.1 = 0 ∨ v.2.1 = 1) with h | h
  · exact ex_weight1 (v := vertAt v) h1 rfl (by show ((v.2.1 : ℕ) : ℤ) = 0; rw [h]; rfl)
  · exact ex_weight1' (v := vertAt v) h1 rfl (by show ((v.2.1 : ℕ) : ℤ) = 1; rw [h]; rfl)

theorem ex_shrink1 : ∃ a, 0 < a ∧ CanShrink exCtx1 1 2 a := by
  refine C72_bounded_below ex_bound1 1 2 one_pos fun x hx hn => ?_
  match x, hx, hn with
  | [], _, _ => rw [List.map_nil, weight_nil]; simp
  | [v], hx, _ => rw [List.map_cons, List.map_nil, ex_single1 hx]; simp

theorem ex_reached (m : Mgr) {c : Ctx ℝ} (ht : TblOK c.NI c.nf c.tbl) : ∃ s : Sub ℝ, ReachedBy m c s ∧ s.verts = [] := by
  obtain ⟨s, e, m0⟩ := create_means ht (empty_goodStart c)
  exact ⟨s, ⟨_, s, ⟨0, 0⟩, 0, fun _ _ _ _ _ _ => 0, fun _ => 0, 0, [], ⟨s, ⟨0, 0⟩, 0⟩, empty_goodStart c, fun _ => ⟨le_rfl, one_pos⟩,
    e, rfl, rfl⟩, m0.cfg⟩

/-- With at most two vertices, starting from none, the probability of one vertex converges to that of the ensemble. -/
example (st : AccStat) (J : ℕ → ℕ → ℕ → ℕ → ℕ → ℕ → ℝ) :
    ∃ s : Sub ℝ, s.verts = [] ∧ Filter.Tendsto (fun n : ℕ => (streams {u | ∃ y, Returns (fun fuel =>
        (⟨s, st, 0⟩ : Walker ℝ).run (Mgr.create 1 3 2 1 exCtx1.tbl) exCtx1 J u fuel (sweeps n [.shift, .insRem, .spinFlip])) y ∧
          ptsOf y.s.verts ∈ {x : List Pt | x.length = 1}}).toReal) Filter.atTop
      (nhds (ensemble exCtx1 1 2 ({x : List Pt | x.length = 1}.indicator 1) / ensemble exCtx1 1 2 1).toReal) := by
  obtain ⟨a, ha, h⟩ := ex_shrink1
  obtain ⟨s, h1, h2⟩ := ex_reached (Mgr.create 1 3 2 1 exCtx1.tbl) ex_tbl1
  exact ⟨s, h2, C72_limit ex_tbl1 ex_full1 (by simp [exCtx1]) ex_measurable1 ex_bound1 one_pos (by norm_num) rfl ha h (by simp) h1
    (by rw [h2]; intro p hp; simp [ptsOf] at hp) (by rw [h2]; simp) st J (fun n => by simp) (fun x y hxy => by simp [hxy.length_eq])⟩

/-- One term whose α is the density: one vertex has no weight, two have. -/
noncomputable def exTermZ : VDef ℝ := ⟨2, [0, 1], [0, 0, 0, 0], 1, 1, fun _ _ => 1 / 2⟩

noncomputable def exCtxZ : Ctx ℝ := ⟨100, 2, fun _ _ => 1 / 2, [exTermZ]⟩

theorem ex_tblZ : TblOK exCtxZ.NI exCtxZ.nf exCtxZ.tbl where
  fl := by intro d hd; simp only [exCtxZ, List.mem_singleton] at hd; subst hd; rfl
  si := by intro d hd; simp only [exCtxZ, List.mem_singleton] at hd; subst hd; rfl
  lt := by
    intro d hd f hf
    simp only [exCtxZ, List.mem_singleton] at hd
    subst hd
    simp only [exTermZ, List.mem_cons, List.not_mem_nil, or_false] at hf
    show f < 2
    omega
  U := by
    intro d hd; simp only [exCtxZ, List.mem_singleton] at hd; subst hd
    show (1 : ℝ) ≠ 0
    norm_num
  al := by
    intro d hd s _ r _
    simp only [exCtxZ, List.mem_singleton] at hd
    subst hd
    show GoodAlpha (100 : ℝ) (1 / 2)
    unfold GoodAlpha
    norm_num

theorem ex_fullZ : FullTerms exCtxZ := by
  intro d hd
  simp only [exCtxZ, List.mem_singleton] at hd
  subst hd
  refine ⟨by decide, fun fl hfl => ⟨fl, hfl, ?_⟩⟩
  have : fl < 2 := hfl
  rcases fl with _ | _ | fl
  · rfl
  · rfl
  · omega

theorem ex_weightZ {v : Vert} (h1 : v.type = 0) (h2 : v.nonInt = false) : weight exCtxZ.NI exCtxZ.nf exCtxZ.G0 exCtxZ.tbl [v] = 0 := by
  have ht : termOf exCtxZ.tbl v = exTermZ := by unfold termOf; rw [h1]; rfl
  have hi : interacting [v] = [v] := by simp [interacting, h2]
  have r0 : rowsOf exCtxZ.NI exCtxZ.tbl [v] 0 = [rowOf exCtxZ.NI exCtxZ.tbl v 0] := by
    simp [rowsOf, rowsV, ht, exTermZ, flavorOf, List.range_succ, List.filter_cons]
  unfold weight detWeight uWeight
  rw [hi]
  show (∏ fl ∈ Finset.range 2, _) * _ = _
  rw [Finset.prod_range_succ, Finset.prod_range_succ, Finset.prod_range_zero, r0]
  simp only [List.length_singleton]
  have : detN 1 (rowG exCtxZ.G0 [rowOf exCtxZ.NI exCtxZ.tbl v 0]) = 0 := by
    unfold detN
    rw [Matrix.det_fin_one]
    simp only [toM_apply, rowG, specG, Fin.val_zero, if_true, List.getD_cons_zero, rowOf, fieldOf, h2, ht, Bool.false_eq_true, if_false]
    simp only [exTermZ, exCtxZ]
    norm_num
  rw [this]
  simp

theorem ex_weightZ2 {v w : Vert} (h1 : v.type = 0) (h2 : v.nonInt = false) (h3 : w.type = 0) (h4 : w.nonInt = false) :
    weight exCtxZ.NI exCtxZ.nf exCtxZ.G0 exCtxZ.tbl [v, w] = 1 / 16 := by
  have hv : termOf exCtxZ.tbl v = exTermZ := by unfold termOf; rw [h1]; rfl
  have hw : termOf exCtxZ.tbl w = exTermZ := by unfold termOf; rw [h3]; rfl
  have hi : interacting [v, w] = [v, w] := by simp [interacting, h2, h4]
  have r0 : rowsOf exCtxZ.NI exCtxZ.tbl [v, w] 0 = [rowOf exCtxZ.NI exCtxZ.tbl v 0, rowOf exCtxZ.NI exCtxZ.tbl w 0] := by
    simp [rowsOf, rowsV, hv, hw, exTermZ, flavorOf, List.range_succ, List.filter_cons]
  have r1 : rowsOf exCtxZ.NI exCtxZ.tbl [v, w] 1 = [rowOf exCtxZ.NI exCtxZ.tbl v 1, rowOf exCtxZ.NI exCtxZ.tbl w 1] := by
    simp [rowsOf, rowsV, hv, hw, exTermZ, flavorOf, List.range_succ, List.filter_cons]
  unfold weight detWeight uWeight
  rw [hi]
  show (∏ fl ∈ Finset.range 2, _) * _ = _
  rw [Finset.prod_range_succ, Finset.prod_range_succ, Finset.prod_range_zero, r0, r1]
  simp only [List.length_cons, List.length_nil, List.map_cons, List.map_nil, List.prod_cons, List.prod_nil, hv, hw]
  unfold detN
  rw [Matrix.det_fin_two, Matrix.det_fin_two]
  simp only [toM_apply, rowG, specG, Fin.val_zero, Fin.val_one, List.getD_cons_zero, List.getD_cons_succ, rowOf, fieldOf, h2, h4, hv, hw,
    Bool.false_eq_true, if_false]
  simp [exTermZ, exCtxZ]
  norm_num

theorem ex_measurableZ : MeasurableG0 exCtxZ.G0 := fun _ _ _ _ _ _ => measurable_const

theorem ex_boundZ : ∀ a b, ‖exCtxZ.G0 a b‖ ≤ 1 := by
  intro a b
  show ‖(1 / 2 : ℝ)‖ ≤ 1
  norm_num

theorem ex_singleZ {v : Pt} (hv : ValidPts 1 exCtxZ.tbl [v]) : weight exCtxZ.NI exCtxZ.nf exCtxZ.G0 exCtxZ.tbl [vertAt v] = 0 := by
  obtain ⟨h1, -⟩ := hv v (by simp)
  have h1 : v.1 = 0 := by simpa [exCtxZ] using h1
  exact ex_weightZ (v := vertAt v) h1 rfl

/-- **C72.**  A case where the probabilities do not converge to those of the ensemble: α equals the density 1/2.  From the
    empty object the program stays at the empty configuration for ever, while the ensemble gives two vertices positive
    weight. -/
theorem C72_stuck_case (st : AccStat) (J : ℕ → ℕ → ℕ → ℕ → ℕ → ℕ → ℝ) :
    ∃ s : Sub ℝ, ReachedBy (Mgr.create 1 3 2 1 exCtxZ.tbl) exCtxZ s ∧ s.verts = [] ∧
      (∀ l, streams {u | ∃ y, Returns (fun fuel => (⟨s, st, 0⟩ : Walker ℝ).run (Mgr.create 1 3 2 1 exCtxZ.tbl) exCtxZ J u fuel l) y ∧
        y.s.verts = []} = 1) ∧
      ensemble exCtxZ 1 2 ({x : List Pt | x.length = 2}.indicator 1) = ENNReal.ofReal (1 / 32) := by
  obtain ⟨s, h1, h2⟩ := ex_reached (Mgr.create 1 3 2 1 exCtxZ.tbl) ex_tblZ
  refine ⟨s, h1, h2, fun l => C72_stuck ex_tblZ ex_fullZ (by simp [exCtxZ]) ex_measurableZ one_pos rfl (fun v hv => ex_singleZ hv) h1 h2 st J l, ?_⟩
  unfold ensemble
  rw [Finset.sum_eq_single 2]
  · have : ∫⁻ x : Fin 2 → Pt, density exCtxZ (List.ofFn x) * ({x : List Pt | x.length = 2}.indicator 1) (List.ofFn x)
        ∂Measure.pi (fun _ => pointMeasure 1 exCtxZ.tbl) =
        ∫⁻ x : Fin 2 → Pt, ENNReal.ofReal (1 / 16) ∂Measure.pi (fun _ => pointMeasure 1 exCtxZ.tbl) := by
      refine lintegral_congr_ae ?_
      filter_upwards [ae_validPts 1 exCtxZ.tbl 2] with x hx
      rw [Set.indicator_of_mem (by simp), Pi.one_apply, mul_one, density_eq]
      rw [show List.ofFn x = [x 0, x 1] by simp [List.ofFn_succ]] at hx ⊢
      obtain ⟨h1, -⟩ := hx (x 0) (by simp)
      obtain ⟨h3, -⟩ := hx (x 1) (by simp)
      have h1 : (x 0).1 = 0 := by simpa [exCtxZ] using h1
      have h3 : (x 1).1 = 0 := by simpa [exCtxZ] using h3
      have hn : numStates exCtxZ.tbl 0 = 1 := rfl
      have hw : wt exCtxZ [x 0, x 1] = 1 / 16 := by
        show weight _ _ _ _ [vertAt (x 0), vertAt (x 1)] = 1 / 16
        exact ex_weightZ2 (v := vertAt (x 0)) (w := vertAt (x 1)) h1 rfl h3 rfl
      rw [hw]
      simp [stateProd, h1, h3, hn]
    rw [this, lintegral_const, Measure.pi_univ]
    have hp : pointMeasure 1 exCtxZ.tbl Set.univ = 1 := by
      have := lintegral_point (beta := 1) (tbl := exCtxZ.tbl) (g := fun _ => 1) measurable_const
      rw [lintegral_one] at this
      rw [this]
      simp [exCtxZ, exTermZ, numStates]
    rw [Finset.prod_const, hp, one_pow, mul_one, ← ENNReal.ofReal_mul (by positivity)]
    congr 1
    norm_num [Nat.factorial]
  · intro n _ hn
    have : ∀ x : Fin n → Pt, density exCtxZ (List.ofFn x) * ({x : List Pt | x.length = 2}.indicator 1) (List.ofFn x) = 0 := by
      intro x
      rw [Set.indicator_of_notMem (by simpa using hn), mul_zero]
    simp only [this]
    simp
  · simp

end CTInt
