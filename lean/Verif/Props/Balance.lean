import Verif.Props.Manager
import Verif.Props.PairDist
import Verif.Spec.Balance

/-!
# Detailed balance: C37
-/

set_option linter.all false

namespace CTInt

open MeasureTheory

variable {K : Type} [RCLike K] [DecidableEq K]
variable {c : Ctx K}

theorem prob1_lt (x : ℝ) (hx : 0 ≤ x) : prob1 (fun r => r < x) = ENNReal.ofReal (min 1 x) := by
  unfold prob1
  have : {r : ℝ | 0 ≤ r ∧ r < 1 ∧ r < x} = Set.Ico 0 (min 1 x) := by
    ext r; simp [lt_min_iff]
  rw [this, Real.volume_Ico, sub_zero]

theorem prob2_and {A B : ℝ → Prop} : prob2 (fun x y => A x ∧ B y) = prob1 A * prob1 B := by
  unfold prob2 prob1
  have : {z : ℝ × ℝ | (0 ≤ z.1 ∧ z.1 < 1) ∧ (0 ≤ z.2 ∧ z.2 < 1) ∧ A z.1 ∧ B z.2} =
      {r : ℝ | 0 ≤ r ∧ r < 1 ∧ A r} ×ˢ {r : ℝ | 0 ≤ r ∧ r < 1 ∧ B r} := by
    ext z; simp only [Set.mem_setOf_eq, Set.mem_prod]; tauto
  rw [this, Measure.volume_eq_prod, Measure.prod_prod]

theorem prob3_and {A B C : ℝ → Prop} : prob3 (fun x y z => A x ∧ B y ∧ C z) = prob1 A * (prob1 B * prob1 C) := by
  unfold prob3 prob1
  have : {z : ℝ × ℝ × ℝ | (0 ≤ z.1 ∧ z.1 < 1) ∧ (0 ≤ z.2.1 ∧ z.2.1 < 1) ∧ (0 ≤ z.2.2 ∧ z.2.2 < 1) ∧
        A z.1 ∧ B z.2.1 ∧ C z.2.2} =
      {r : ℝ | 0 ≤ r ∧ r < 1 ∧ A r} ×ˢ {r : ℝ | 0 ≤ r ∧ r < 1 ∧ B r} ×ˢ {r : ℝ | 0 ≤ r ∧ r < 1 ∧ C r} := by
    ext z; simp only [Set.mem_setOf_eq, Set.mem_prod]; tauto
  rw [this, Measure.volume_eq_prod, Measure.prod_prod, Measure.volume_eq_prod, Measure.prod_prod]

theorem prob1_floor {n k : ℕ} (hk : k < n) : prob1 (fun r => ⌊r * n⌋₊ = k) = ENNReal.ofReal (1 / n) := by
  unfold prob1
  have hn : (0 : ℝ) < n := by exact_mod_cast (by omega : 0 < n)
  have hkn : (k : ℝ) + 1 ≤ n := by exact_mod_cast hk
  have : {r : ℝ | 0 ≤ r ∧ r < 1 ∧ ⌊r * n⌋₊ = k} = Set.Ico ((k : ℝ) / n) ((k + 1) / n) := by
    ext r
    simp only [Set.mem_setOf_eq, Set.mem_Ico]
    rw [div_le_iff₀ hn, lt_div_iff₀ hn]
    constructor
    · rintro ⟨h0, h1, h2⟩
      rwa [Nat.floor_eq_iff (by positivity)] at h2
    · rintro ⟨h1, h2⟩
      have h0 : 0 ≤ r := by
        by_contra h
        push Not at h
        have : r * n < 0 := mul_neg_of_neg_of_pos h hn
        have : (0 : ℝ) ≤ k := by positivity
        linarith
      refine ⟨h0, ?_, ?_⟩
      · by_contra h
        push Not at h
        nlinarith
      · rw [Nat.floor_eq_iff (by positivity)]
        exact ⟨h1, h2⟩
  rw [this, Real.volume_Ico]
  congr 1
  field_simp
  ring

/-- C37: the acceptance test succeeds with probability min(1, |x|). -/
theorem C37_acceptance (R : K) (corr : ℝ) :
    prob1 (fun r => (decision r R corr).isSome = true) = ENNReal.ofReal (min 1 ‖R * (corr : K)‖) := by
  rw [← prob1_lt _ (norm_nonneg _)]
  unfold prob1
  congr 1
  ext r
  simp only [Set.mem_setOf_eq]
  unfold decision
  split <;> simp_all

/-- C37: the vertex drawn for an insertion has type `t`, state `f` and a time in [x,y) with probability
    (y-x)/(beta · number of types · number of states of the type). -/
theorem C37_insertion_draw {beta : ℝ} (hb : 0 < beta) {kIns maxOrder : ℕ} {sz : ℝ} {tbl : List (VDef K)} {t f : ℕ}
    (ht : t < tbl.length) (hf : f < (tbl[t]).numAf) {x y : ℝ} (hx : 0 ≤ x) (hxy : x ≤ y) (hy : y ≤ beta) :
    prob3 (fun r1 r2 r3 => ∃ v, (Mgr.create beta kIns maxOrder sz tbl).genVertex tbl (stream3 r1 r2 r3) 0 = .ok ([v], 3) ∧
      v.type = t ∧ v.af = (f : ℤ) ∧ x ≤ v.time ∧ v.time < y) =
      ENNReal.ofReal ((y - x) / (beta * tbl.length * (tbl[t]).numAf)) := by
  have hlen : 0 < tbl.length := by omega
  have key : prob3 (fun r1 r2 r3 => ∃ v, (Mgr.create beta kIns maxOrder sz tbl).genVertex tbl (stream3 r1 r2 r3) 0 =
      .ok ([v], 3) ∧ v.type = t ∧ v.af = (f : ℤ) ∧ x ≤ v.time ∧ v.time < y) =
      prob3 (fun r1 r2 r3 => (x ≤ r1 * beta ∧ r1 * beta < y) ∧ ⌊r2 * tbl.length⌋₊ = t ∧ ⌊r3 * (tbl[t]).numAf⌋₊ = f) := by
    unfold prob3
    congr 1
    ext ⟨r1, r2, r3⟩
    simp only [Set.mem_setOf_eq]
    refine and_congr_right fun h1 => and_congr_right fun h2 => and_congr_right fun h3 => ?_
    have hiv : ⌊r2 * tbl.length⌋₊ < tbl.length := floor_mul_lt h2 hlen
    have e : (Mgr.create beta kIns maxOrder sz tbl).genVertex tbl (stream3 r1 r2 r3) 0 =
        .ok ([⟨⌊r2 * tbl.length⌋₊, ((⌊r3 * (tbl[⌊r2 * tbl.length⌋₊]'hiv).numAf⌋₊ : ℕ) : ℤ),
          (tbl[⌊r2 * tbl.length⌋₊]'hiv).rank, r1 * beta, (tbl[⌊r2 * tbl.length⌋₊]'hiv).isDensity, true, 0⟩], 3) := by
      unfold Mgr.genVertex Mgr.create
      simp only [List.length_range, Nat.zero_add]
      rw [if_neg (by omega)]
      have s0 : stream3 r1 r2 r3 0 = r1 := rfl
      have s1 : stream3 r1 r2 r3 1 = r2 := rfl
      have s2 : stream3 r1 r2 r3 2 = r3 := rfl
      rw [s0, s1, s2]
      rw [Res.get_of_lt (by rw [List.length_range]; exact hiv)]
      simp only [Res.bind_ok, List.getElem_range]
      rw [Res.get_of_lt hiv]
      rfl
    rw [e]
    constructor
    · rintro ⟨v, hv, q1, q2, q3⟩
      have hv : v = ⟨⌊r2 * tbl.length⌋₊, ((⌊r3 * (tbl[⌊r2 * tbl.length⌋₊]'hiv).numAf⌋₊ : ℕ) : ℤ),
          (tbl[⌊r2 * tbl.length⌋₊]'hiv).rank, r1 * beta, (tbl[⌊r2 * tbl.length⌋₊]'hiv).isDensity, true, 0⟩ := by
        injection hv with hv
        injection hv with hv _
        injection hv with hv _
        exact hv.symm
      subst hv
      have q1 : ⌊r2 * tbl.length⌋₊ = t := q1
      refine ⟨q3, q1, ?_⟩
      simp only [q1] at q2
      exact_mod_cast q2
    · rintro ⟨q1, q2, q3⟩
      refine ⟨_, rfl, q2, ?_, q1⟩
      simp only [q2]
      exact_mod_cast q3
  rw [key, prob3_and, prob1_floor ht, prob1_floor hf]
  have : prob1 (fun r1 => x ≤ r1 * beta ∧ r1 * beta < y) = ENNReal.ofReal ((y - x) / beta) := by
    unfold prob1
    have : {r : ℝ | 0 ≤ r ∧ r < 1 ∧ x ≤ r * beta ∧ r * beta < y} = Set.Ico (x / beta) (y / beta) := by
      ext r
      simp only [Set.mem_setOf_eq, Set.mem_Ico]
      rw [div_le_iff₀ hb, lt_div_iff₀ hb]
      constructor
      · rintro ⟨_, _, h⟩; exact h
      · rintro ⟨h1, h2⟩
        exact ⟨by by_contra h; push Not at h; nlinarith, by by_contra h; push Not at h; nlinarith, h1, h2⟩
    rw [this, Real.volume_Ico]
    congr 1
    ring
  rw [this, ← ENNReal.ofReal_mul (by positivity), ← ENNReal.ofReal_mul (by have := sub_nonneg.mpr hxy; positivity)]
  congr 1
  field_simp

/-- The metropolis identity. -/
theorem metropolis_balance {A B q q' : ℝ} (hA : 0 < A) (hB : 0 < B) (hq : 0 < q) (hq' : 0 < q') :
    A * q * min 1 (B / A * (q' / q)) = B * q' * min 1 (A / B * (q / q')) := by
  rw [mul_min_of_nonneg _ _ (by positivity), mul_min_of_nonneg _ _ (by positivity)]
  have h1 : A * q * (B / A * (q' / q)) = B * q' := by field_simp
  have h2 : B * q' * (A / B * (q / q')) = A * q := by field_simp
  rw [h1, h2, mul_one, mul_one, min_comm]

theorem flipTo_back {v : Vert} (h : v.nonInt = true) : flipTo (flipTo v v.af) (-1) = v := by
  cases v
  unfold flipTo
  simp only at h
  subst h
  rename_i af _ _ _ _
  by_cases hz : af = -1
  · simp [hz]
  · simp [hz]

theorem flip_back {vs : List Vert} {i : ℕ} (hi : i < vs.length) (h : (vs.getD i default).nonInt = true) {z : ℤ} :
    z = (vs.getD i default).af → (vs.modify i (flipTo · z)).modify i (flipTo · (-1)) = vs := by
  rintro rfl
  rw [List.getD_eq_getElem _ _ hi] at h ⊢
  apply List.ext_getElem
  · simp
  · intro j h1 h2
    rw [List.getElem_modify, List.getElem_modify]
    split
    · rename_i e
      subst e
      exact flipTo_back h
    · rfl

/-- The stream of one number. -/
def stream1 (r : ℝ) (_ : ℕ) : ℝ := r

/-- The probability that `insertion_step` inserts the vertex waiting at position `i`. -/
noncomputable def insertionProb (m : Mgr) (c : Ctx K) (junk : ℕ → ℕ → ℕ → K) (s : Sub K) (i : ℕ) (new : List Vert) : ENNReal :=
  prob1 fun r => ∃ s' y p', m.insertionStep c junk (stream1 r) 1 s i 1 0 = .ok (s', some y, p') ∧ s'.verts = new

/-- The probability that `removal_step` leads to the configuration `old`. -/
noncomputable def removalProb (m : Mgr) (c : Ctx K) (junk : ℕ → ℕ → ℕ → K) (s : Sub K) (old : List Vert) : ENNReal :=
  prob2 fun r1 r2 => ∃ s' y p', m.removalStep c junk (stream2 r1 r2) 1 s 0 = .ok (s', some y, p') ∧ s'.verts = old

theorem insertionProb_eq (ht : TblOK c.NI c.nf c.tbl) {beta : ℝ} (hb : 0 < beta) {kIns maxOrder : ℕ} {sz : ℝ}
    {m : Mgr} (hm : m = Mgr.create beta kIns maxOrder sz c.tbl) {s : Sub K} {a : Abs} (h : Means c s a)
    (hop : a.isOpen = true) {i : ℕ} (hi : i < a.cfg.length) (hn : (a.cfg.getD i default).nonInt = true)
    (haf : 0 ≤ (a.cfg.getD i default).af ∧ (a.cfg.getD i default).af < (termOf c.tbl (a.cfg.getD i default)).numAf)
    (hib : a.cfg.getD i default = a.base.getD i default) (junk : ℕ → ℕ → ℕ → K) :
    insertionProb m c junk s i (a.cfg.modify i (flipTo · (a.cfg.getD i default).af)) =
      ENNReal.ofReal (min 1 (‖weight c.NI c.nf c.G0 c.tbl (a.cfg.modify i (flipTo · (a.cfg.getD i default).af)) /
        weight c.NI c.nf c.G0 c.tbl a.cfg‖ * (beta * c.tbl.length / ((interacting a.cfg).length + 1)))) := by
  obtain ⟨new, hnew⟩ : ∃ new, new = a.cfg.modify i (flipTo · (a.cfg.getD i default).af) := ⟨_, rfl⟩
  obtain ⟨R, hR⟩ : ∃ R, R = weight c.NI c.nf c.G0 c.tbl new / weight c.NI c.nf c.G0 c.tbl a.cfg := ⟨_, rfl⟩
  obtain ⟨corr, hcorr⟩ : ∃ corr, corr = beta * c.tbl.length / (((interacting a.cfg).length : ℝ) + 1) := ⟨_, rfl⟩
  have hc0 : 0 ≤ corr := by rw [hcorr]; positivity
  rw [← hnew, ← hR, ← hcorr]
  have hn1 : ‖R‖ * corr = ‖R * (corr : K)‖ := by
    rw [norm_mul, RCLike.norm_ofReal, abs_of_nonneg hc0]
  rw [hn1, ← C37_acceptance]
  unfold insertionProb prob1
  congr 1
  ext r
  simp only [Set.mem_setOf_eq]
  refine and_congr_right fun h0 => and_congr_right fun _ => ?_
  obtain ⟨s', o, e1, e2, e3, _⟩ := flip_one_spec ht h hop hi (z := (a.cfg.getD i default).af) (Or.inr haf) (Or.inl hib)
    (r := r) h0 corr junk
  rw [← hnew, ← hR] at e2
  have hcand : m.corrIns a.cfg = .ok corr := by
    unfold Mgr.corrIns
    rw [hm, candidates_spec (fun v hv => (h.vertOK v hv).1)]
    simp only [Res.bind_ok]
    rw [interacting_range, hcorr]
    simp only [Mgr.create, List.length_range]
    rfl
  have est : m.insertionStep c junk (stream1 r) 1 s i 1 0 = .ok (s', o, 1) := by
    unfold Mgr.insertionStep
    rw [h.cfg, Res.assert_true (by omega)]
    simp only [Res.bind_ok, one_ne_zero, if_false, List.range_one, List.map_cons, List.map_nil, Nat.zero_add]
    rw [Res.assert_true (by intro j hj; rw [List.mem_singleton] at hj; subst hj; exact hn)]
    simp only [Res.bind_ok, if_true, hcand, one_pow, mul_one]
    show (metropolis c junk s [i] [(a.cfg.getD i default).af] corr r >>= _) = _
    rw [e1]
    rfl
  rw [est, ← e2]
  constructor
  · rintro ⟨s1, y, p', e, _⟩
    have : o = some y := by
      injection e with e; injection e with _ e; injection e
    rw [this]; rfl
  · intro ho
    obtain ⟨y, hy⟩ := Option.isSome_iff_exists.mp ho
    refine ⟨s', y, 1, by rw [hy], ?_⟩
    have := e3.cfg
    rw [this]
    show (if o.isSome then _ else _) = _
    rw [if_pos ho, hnew]

theorem removalProb_eq (ht : TblOK c.NI c.nf c.tbl) {beta : ℝ} (hb : 0 < beta) {kIns maxOrder : ℕ} {sz : ℝ}
    {m : Mgr} (hm : m = Mgr.create beta kIns maxOrder sz c.tbl) {s : Sub K} {a : Abs} (h : Means c s a)
    (hop : a.isOpen = true) {i : ℕ} (hi : i < a.cfg.length) (hn : (a.cfg.getD i default).nonInt = false)
    (hib : a.cfg.getD i default = a.base.getD i default ∨ (a.base.getD i default).nonInt = true) (junk : ℕ → ℕ → ℕ → K) :
    removalProb m c junk s (a.cfg.modify i (flipTo · (-1))) =
      ENNReal.ofReal (1 / (interacting a.cfg).length) *
      ENNReal.ofReal (min 1 (‖weight c.NI c.nf c.G0 c.tbl (a.cfg.modify i (flipTo · (-1))) /
        weight c.NI c.nf c.G0 c.tbl a.cfg‖ * ((interacting a.cfg).length / (beta * c.tbl.length)))) := by
  obtain ⟨new, hnew⟩ : ∃ new, new = a.cfg.modify i (flipTo · (-1)) := ⟨_, rfl⟩
  obtain ⟨R, hR⟩ : ∃ R, R = weight c.NI c.nf c.G0 c.tbl new / weight c.NI c.nf c.G0 c.tbl a.cfg := ⟨_, rfl⟩
  obtain ⟨corr, hcorr⟩ : ∃ corr, corr = ((interacting a.cfg).length : ℝ) / (beta * c.tbl.length) := ⟨_, rfl⟩
  have hc0 : 0 ≤ corr := by rw [hcorr]; positivity
  rw [← hnew, ← hR, ← hcorr]
  have hn1 : ‖R‖ * corr = ‖R * (corr : K)‖ := by
    rw [norm_mul, RCLike.norm_ofReal, abs_of_nonneg hc0]
  obtain ⟨l, hl⟩ : ∃ l, l = (List.range a.cfg.length).filter fun j => !(a.cfg.getD j default).nonInt := ⟨_, rfl⟩
  have hlen : l.length = (interacting a.cfg).length := by rw [hl, interacting_range]
  have hil : i ∈ l := by
    rw [hl, List.mem_filter]
    exact ⟨List.mem_range.mpr hi, by rw [hn]; rfl⟩
  have hall : ∀ x ∈ l, x < a.cfg.length := by
    intro x hx
    rw [hl, List.mem_filter, List.mem_range] at hx
    exact hx.1
  have hnd : l.Nodup := by rw [hl]; exact List.nodup_range.filter _
  obtain ⟨k, hk, hki⟩ := List.getElem_of_mem hil
  have hcand : m.candidates a.cfg = .ok l := by
    rw [hm, candidates_spec (fun v hv => (h.vertOK v hv).1), hl]
  rw [hn1, ← C37_acceptance, ← hlen, ← prob1_floor hk, ← prob2_and]
  unfold removalProb prob2
  congr 1
  ext ⟨r1, r2⟩
  simp only [Set.mem_setOf_eq]
  refine and_congr_right fun h1 => and_congr_right fun h2 => ?_
  have hidx : ⌊r1 * l.length⌋₊ < l.length := floor_mul_lt h1 (by omega)
  have hpick : m.pickRemoval a.cfg (stream2 r1 r2) 0 = .ok (some l[⌊r1 * l.length⌋₊], corr, 1) := by
    unfold Mgr.pickRemoval
    rw [hcand]
    simp only [Res.bind_ok]
    rw [if_neg (by omega), mul_comm]
    rw [show stream2 r1 r2 0 = r1 from rfl, Res.get_of_lt hidx]
    simp only [Res.bind_ok, hcorr, ← hlen]
    rw [hm]
    simp only [Mgr.create, List.length_range]
    rfl
  by_cases hj : ⌊r1 * l.length⌋₊ = k
  · simp only [hj, true_and]
    obtain ⟨s', o, e1, e2, e3, _⟩ := flip_one_spec ht h hop hi (z := -1) (Or.inl rfl)
      (hib.imp id fun q => ⟨rfl, q⟩) (r := r2) h2.1 corr junk
    rw [← hnew, ← hR] at e2
    have est : m.removalStep c junk (stream2 r1 r2) 1 s 0 = .ok (s', o, 2) := by
      unfold Mgr.removalStep
      rw [h.cfg, hpick]
      simp only [Res.bind_ok, hj, hki]
      rw [Res.assert_true hn]
      simp only [Res.bind_ok, inv_one, mul_one]
      show (metropolis c junk s [i] [-1] corr r2 >>= _) = _
      rw [e1]
      rfl
    rw [est, ← e2]
    constructor
    · rintro ⟨s1, y, p', e, _⟩
      have : o = some y := by
        injection e with e; injection e with _ e; injection e
      rw [this]; rfl
    · intro ho
      obtain ⟨y, hy⟩ := Option.isSome_iff_exists.mp ho
      refine ⟨s', y, 2, by rw [hy], ?_⟩
      rw [e3.cfg]
      show (if o.isSome then _ else _) = _
      rw [if_pos ho, hnew]
  · simp only [hj, false_and, iff_false]
    rintro ⟨s', y, p', e, hs'⟩
    unfold Mgr.removalStep at e
    rw [h.cfg, hpick] at e
    simp only [Res.bind_ok, Res.bind_eq_ok] at e
    obtain ⟨_, _, ⟨s1, o1, w1⟩, e2, e⟩ := e
    cases e
    have hv := (metropolis_verts e2).1
    rw [hs', h.cfg] at hv
    simp only [Option.isSome_some, if_true] at hv
    have hne : l[⌊r1 * l.length⌋₊] ≠ i := by
      intro q
      apply hj
      exact (hnd.getElem_inj_iff (hi := hidx) (hj := hk)).mp (q.trans hki.symm)
    have hjm : l[⌊r1 * l.length⌋₊] < a.cfg.length := hall _ (List.getElem_mem hidx)
    have g1 : ((a.cfg.modify i (flipTo · (-1))).getD i default).nonInt = true := by
      rw [getD_modify _ _ _ _ hi, if_pos rfl]; rfl
    have g2 : ((flipAll a.cfg ([l[⌊r1 * l.length⌋₊]].zip [-1])).getD i default).nonInt = false := by
      show ((a.cfg.modify l[⌊r1 * l.length⌋₊] (flipTo · (-1))).getD i default).nonInt = false
      rw [getD_modify _ _ _ _ hjm, if_neg hne]
      exact hn
    rw [← hnew, hv] at g1
    rw [g1] at g2
    cases g2

/-- C37, detailed balance: let a batch be open, with configuration `a.cfg` in which a freshly drawn vertex waits at
    position `i`, and let another object (or the same one later) have the configuration that differs from it by this vertex
    being inserted.  Then the density of drawing the vertex (see `C37_insertion_draw`) and inserting it, weighted with the
    stationary density of the first configuration, equals the probability of choosing and removing it, weighted with the
    stationary density of the second.  (Insertion and removal are proposed with equal probability 1/2,
    update_manager.hpp 370.)  -/
theorem C37_detailed_balance (ht : TblOK c.NI c.nf c.tbl) {beta : ℝ} (hb : 0 < beta) {kIns maxOrder : ℕ} {sz : ℝ}
    {m : Mgr} (hm : m = Mgr.create beta kIns maxOrder sz c.tbl) {s s' : Sub K} {a a' : Abs} (h : Means c s a)
    (h' : Means c s' a') (hop : a.isOpen = true) (hop' : a'.isOpen = true) {i : ℕ} (hi : i < a.cfg.length)
    (hn : (a.cfg.getD i default).nonInt = true)
    (haf : 0 ≤ (a.cfg.getD i default).af ∧ (a.cfg.getD i default).af < (termOf c.tbl (a.cfg.getD i default)).numAf)
    (hib : a.cfg.getD i default = a.base.getD i default)
    (hcfg : a'.cfg = a.cfg.modify i (flipTo · (a.cfg.getD i default).af))
    (hib' : a'.cfg.getD i default = a'.base.getD i default ∨ (a'.base.getD i default).nonInt = true)
    (junk : ℕ → ℕ → ℕ → K) :
    ENNReal.ofReal (target c.NI c.nf c.G0 c.tbl a.cfg) *
        ENNReal.ofReal (1 / (beta * c.tbl.length * (termOf c.tbl (a.cfg.getD i default)).numAf)) *
        insertionProb m c junk s i a'.cfg =
      ENNReal.ofReal (target c.NI c.nf c.G0 c.tbl a'.cfg) * removalProb m c junk s' a.cfg := by
  have hi' : i < a'.cfg.length := by rw [hcfg, List.length_modify]; exact hi
  have hz : (a.cfg.getD i default).af ≠ -1 := by omega
  have hn' : (a'.cfg.getD i default).nonInt = false := by
    rw [hcfg, getD_modify _ _ _ _ hi, if_pos rfl]
    unfold flipTo
    rw [if_neg hz]
  have hback : a'.cfg.modify i (flipTo · (-1)) = a.cfg := by
    rw [hcfg]; exact flip_back hi hn rfl
  have e1 := insertionProb_eq ht hb hm h hop hi hn haf hib junk
  have e2 := removalProb_eq ht hb hm h' hop' hi' hn' hib' junk
  rw [hback] at e2
  rw [← hcfg] at e1
  have hsh := interacting_show (l := a.cfg) (i := i) hi (by rw [List.getD_eq_getElem _ _ hi] at hn; exact hn) hz
  rw [← hcfg] at hsh
  have hcount : (interacting a'.cfg).length = (interacting a.cfg).length + 1 := by
    rw [hsh.length_eq]; rfl
  have hterm : termOf c.tbl (flipTo a.cfg[i] (a.cfg.getD i default).af) = termOf c.tbl (a.cfg.getD i default) := by
    rw [List.getD_eq_getElem _ _ hi]
    unfold termOf flipTo
    split <;> rfl
  have htgt : target c.NI c.nf c.G0 c.tbl a'.cfg = ‖weight c.NI c.nf c.G0 c.tbl a'.cfg‖ *
      (((termOf c.tbl (a.cfg.getD i default)).numAf : ℝ)⁻¹ *
        ((interacting a.cfg).map fun v => ((termOf c.tbl v).numAf : ℝ)⁻¹).prod) := by
    unfold target
    rw [(hsh.map _).prod_eq, List.map_cons, List.prod_cons, hterm]
  have hw := h.weight_ne_zero ht
  have hw' := h'.weight_ne_zero ht
  have hA : 0 < ‖weight c.NI c.nf c.G0 c.tbl a.cfg‖ := norm_pos_iff.mpr hw
  have hB : 0 < ‖weight c.NI c.nf c.G0 c.tbl a'.cfg‖ := norm_pos_iff.mpr hw'
  have hP : 0 ≤ ((interacting a.cfg).map fun v => ((termOf c.tbl v).numAf : ℝ)⁻¹).prod := by
    apply List.prod_nonneg
    intro x hx
    obtain ⟨v, _, rfl⟩ := List.mem_map.mp hx
    positivity
  have htl : (0 : ℝ) < c.tbl.length := by
    have := (h.vertOK (a.cfg.getD i default) (by rw [List.getD_eq_getElem _ _ hi]; exact List.getElem_mem _)).1
    exact_mod_cast (by omega : 0 < c.tbl.length)
  rw [e1, e2, htgt, hcount]
  unfold target
  rw [norm_div, norm_div]
  have hN : (0 : ℝ) < (termOf c.tbl (a.cfg.getD i default)).numAf := by
    have : (0 : ℤ) < (termOf c.tbl (a.cfg.getD i default)).numAf := lt_of_le_of_lt haf.1 haf.2
    exact_mod_cast this
  generalize hgN : ((termOf c.tbl (a.cfg.getD i default)).numAf : ℝ) = N at hN ⊢
  generalize hgP : ((interacting a.cfg).map fun v => ((termOf c.tbl v).numAf : ℝ)⁻¹).prod = P at hP ⊢
  generalize hgA : ‖weight c.NI c.nf c.G0 c.tbl a.cfg‖ = A at hA ⊢
  generalize hgB : ‖weight c.NI c.nf c.G0 c.tbl a'.cfg‖ = B at hB ⊢
  generalize hgT : (c.tbl.length : ℝ) = T at htl ⊢
  push_cast
  have hn0 : (0 : ℝ) < ((interacting a.cfg).length : ℝ) + 1 := by positivity
  generalize hgn : ((interacting a.cfg).length : ℝ) + 1 = n at hn0 ⊢
  have hbT : 0 < beta * T := mul_pos hb htl
  have key := metropolis_balance hA hB (q := 1 / (beta * T)) (q' := 1 / n) (by positivity) (by positivity)
  have q1 : 1 / n / (1 / (beta * T)) = beta * T / n := by field_simp
  have q2 : 1 / (beta * T) / (1 / n) = n / (beta * T) := by field_simp
  rw [q1, q2] at key
  rw [← ENNReal.ofReal_mul (by positivity), ← ENNReal.ofReal_mul (by positivity), ← ENNReal.ofReal_mul (by positivity),
    ← ENNReal.ofReal_mul (by positivity)]
  congr 1
  have r1 : A * P * (1 / (beta * T * N)) * min 1 (B / A * (beta * T / n)) =
      A * (1 / (beta * T)) * min 1 (B / A * (beta * T / n)) * (P / N) := by field_simp
  rw [r1, key]
  field_simp


/-- C37 for pairs of vertices of two different types, drawn with the pair distribution: on the two ends of the same
    transition both factors are computed from the same list of pair weights and are reciprocal; the removal picks the pair
    that was inserted exactly if the draw returns its position `k` in that list; and with the density 1/beta · P(t) of the
    insertion and the probability prob[k]/sum of the removal the step is reversible for any two weights `A`, `B`. -/
theorem C37_pairs {d : PairDist} (hd : d.OK) {vs : List Vert} {i j : ℕ} (hi : i < vs.length) (hj : j < vs.length)
    (hij : i ≠ j) {t1 t2 : ℕ} (h1 : (vs[i]).type = t1) (h2 : (vs[j]).type = t2) (ht : t1 ≠ t2) {new : List Vert}
    (hnew : new = (vs.modify i fun v => { v with nonInt := false }).modify j fun v => { v with nonInt := false }) :
    ∃ (prob : List ℝ) (k : ℕ) (hk : k < prob.length) (f f' : ℝ),
      prob[k] = d.bare (mymod ((vs[j]).time - (vs[i]).time) d.beta) ∧
      (∀ draw : List ℝ → ℕ, draw prob < prob.length →
        Mgr.pairCorrIns d d.beta draw vs i j = .ok f ∧
        ∃ q, Mgr.pairCorrRem d d.beta draw new t1 t2 = .ok (some q, f') ∧ (q = (i, j) ↔ draw prob = k)) ∧
      f * f' = 1 ∧
      ∀ A B : ℝ, 0 < A → 0 < B →
        A * (1 / d.beta * d.density (mymod ((vs[j]).time - (vs[i]).time) d.beta)) * min 1 (B / A * f) =
          B * (prob[k] / prob.sum) * min 1 (A / B * f') := by
  have gi : i < new.length := by rw [hnew]; simpa using hi
  have gj : j < new.length := by rw [hnew]; simpa using hj
  have ei : new[i] = { vs[i] with nonInt := false } := by
    subst hnew
    rw [List.getElem_modify, if_neg (Ne.symm hij), List.getElem_modify, if_pos rfl]
  have ej : new[j] = { vs[j] with nonInt := false } := by
    subst hnew
    rw [List.getElem_modify, if_pos rfl, List.getElem_modify, if_neg hij]
  have hvp : ValidPair new t1 t2 i j :=
    ⟨gi, gj, by rw [ei], by rw [ej], by rw [ei]; exact h1, by rw [ej]; exact h2⟩
  obtain ⟨prob, pairAt, q1, q2, q3⟩ := C36_pairs d d.beta (vs := new) ht ⟨i, j, hvp⟩
  obtain ⟨k, ⟨hk, hkp⟩, huniq⟩ := q3 i j hvp
  have hpos : ∀ x ∈ prob, 0 < x := by
    intro x hx
    obtain ⟨n, hn, rfl⟩ := List.getElem_of_mem hx
    rw [(q2 n hn).2.2]
    exact PairDist.bare_pos hd _
  have hpk : prob[k] = d.bare (mymod ((vs[j]).time - (vs[i]).time) d.beta) := by
    rw [(q2 k hk).2.2, hkp]
    simp only []
    rw [List.getD_eq_getElem _ _ gi, List.getD_eq_getElem _ _ gj, ei, ej]
  have hF : 0 < prob.sum := by
    refine List.sum_pos _ hpos ?_
    intro e
    rw [e] at hk
    simp at hk
  have hcX : 0 < d.coeffX := by
    have := C34_prefactors hd
    have h2 := PairDist.coeff_pos hd
    have h3 := hd.beta
    by_contra hn
    push Not at hn
    have : d.coeff * d.coeffX * d.beta ≤ 0 :=
      mul_nonpos_of_nonpos_of_nonneg (mul_nonpos_of_nonneg_of_nonpos h2.le hn) h3.le
    linarith
  have hb := hd.beta
  refine ⟨prob, k, hk, d.beta * d.beta * d.coeffX / prob.sum, prob.sum / (d.beta * d.beta * d.coeffX), hpk, ?_, ?_, ?_⟩
  · intro draw hdraw
    have e := q1 draw hdraw
    constructor
    · unfold Mgr.pairCorrIns
      rw [Res.get_of_lt hi, Res.get_of_lt hj]
      simp only [Res.bind_ok]
      rw [h1, h2, ← hnew, e]
      rfl
    · refine ⟨pairAt (draw prob), ?_, ?_⟩
      · unfold Mgr.pairCorrRem
        rw [e]
        rfl
      · constructor
        · intro q
          exact huniq _ ⟨hdraw, q⟩
        · intro q
          rw [q, hkp]
  · field_simp
  · intro A B hA hB
    have hbare := PairDist.bare_pos hd (mymod ((vs[j]).time - (vs[i]).time) d.beta)
    have hc := PairDist.coeff_pos hd
    rw [hpk]
    unfold PairDist.density
    generalize d.bare (mymod ((vs[j]).time - (vs[i]).time) d.beta) = b at hbare
    have key := metropolis_balance hA hB (q := 1 / d.beta * (d.coeff * b)) (q' := b / prob.sum) (by positivity) (by positivity)
    have hpre := C34_prefactors hd
    have r1 : b / prob.sum / (1 / d.beta * (d.coeff * b)) = d.beta * d.beta * d.coeffX / prob.sum := by
      field_simp
      linear_combination -hpre
    have r2 : 1 / d.beta * (d.coeff * b) / (b / prob.sum) = prob.sum / (d.beta * d.beta * d.coeffX) := by
      rw [← inv_div, r1, inv_div]
    rw [r1, r2] at key
    exact key


/-- The hypotheses of `C37_detailed_balance` hold for a batch opened on the empty configuration with two drawn vertices,
    and the same batch after the first one was inserted. -/
example : ∃ (s s' : Sub ℝ) (a a' : Abs), Means exCtx s a ∧ Means exCtx s' a' ∧
    ENNReal.ofReal (target exCtx.NI exCtx.nf exCtx.G0 exCtx.tbl a.cfg) *
        ENNReal.ofReal (1 / (3 * exCtx.tbl.length * (termOf exCtx.tbl (a.cfg.getD 0 default)).numAf)) *
        insertionProb (Mgr.create 3 5 10 0 exCtx.tbl) exCtx (fun _ _ _ => 0) s 0 a'.cfg =
      ENNReal.ofReal (target exCtx.NI exCtx.nf exCtx.G0 exCtx.tbl a'.cfg) *
        removalProb (Mgr.create 3 5 10 0 exCtx.tbl) exCtx (fun _ _ _ => 0) s' a.cfg := by
  obtain ⟨h1, _, h3, _⟩ := ex_admissible
  obtain ⟨s0, e0, m0⟩ := create_means ex_tbl (empty_goodStart exCtx)
  obtain ⟨s, e, m⟩ := step_spec ex_tbl m0 h1 (fun _ _ _ _ => 0)
  obtain ⟨s', e', m'⟩ := step_spec ex_tbl m h3 (fun _ _ _ _ => 0)
  refine ⟨s, s', _, _, m, m', ?_⟩
  refine C37_detailed_balance ex_tbl (by norm_num) rfl m m' rfl rfl (i := 0) ?_ rfl ?_ rfl rfl (Or.inr rfl) _
  · show 0 < 2; omega
  · exact ⟨le_rfl, by show (0 : ℤ) < 2; omega⟩

/-- The hypotheses of `C37_pairs` hold for a pair of two types next to a vertex of the first type. -/
example (a b : Vert) (ha : a.type = 1) (hb : b.type = 2) (v : Vert) (hv : v.type = 1) (hvi : v.nonInt = false) :
    ∃ (prob : List ℝ) (k : ℕ) (hk : k < prob.length) (f f' : ℝ),
      prob[k] = (PairDist.mk 1 1 3).bare (mymod (b.time - a.time) 3) ∧ f * f' = 1 := by
  obtain ⟨prob, k, hk, f, f', h1, _, h2, _⟩ := C37_pairs (d := ⟨1, 1, 3⟩) ⟨by norm_num, by norm_num, by norm_num⟩
    (vs := [v, a, b]) (i := 1) (j := 2) (by simp) (by simp) (by omega) (t1 := 1) (t2 := 2) ha hb (by omega) rfl
  exact ⟨prob, k, hk, f, f', h1, h2⟩


end CTInt
