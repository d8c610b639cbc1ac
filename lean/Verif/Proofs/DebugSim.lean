import Verif.Model.DebugSim
import Verif.Proofs.DebugRun
import Verif.Props.Manager

/-!
# The debug build runs the same Monte Carlo chain
-/

set_option linter.all false

namespace CTInt

variable {K : Type} [RCLike K] [DecidableEq K]
variable {c : Ctx K} {s : Sub K} {a : Abs}

theorem res_bind_congr {α β : Type} {x : Res α} {f g : α → Res β} (h : ∀ y, x = .ok y → f y = g y) :
    (x >>= f) = (x >>= g) := by
  cases x with
  | ok y => exact h y rfl
  | throw _ => rfl
  | ub => rfl

theorem run_bind_congr {α β : Type} {x : Run α} {f g : α → Run β} (h : ∀ y, x = .ok y → f y = g y) :
    (x >>= f) = (x >>= g) := by
  cases x with
  | ok y => exact h y rfl
  | throw _ => rfl
  | ub => rfl
  | more => rfl

theorem lift_eq_ok {α : Type} {x : Res α} {y : α} (h : Run.lift x = .ok y) : x = .ok y := by
  cases x with
  | ok z => exact congrArg Res.ok (by injection h)
  | throw _ => cases h
  | ub => cases h

theorem metropolisD_eq (ht : TblOK c.NI c.nf c.tbl) (h : Means c s a) (hop : a.isOpen = true) {pos : List ℕ}
    {spins : List ℤ} (hw : WellFormed c.tbl a.cfg pos spins)
    (htr : ∀ fl < c.nf, OnlyLeaves c.NI c.tbl a.base a.cfg (pos.zip spins) fl ∨
      OnlyReturns c.NI c.tbl a.base a.cfg (pos.zip spins) fl)
    (hu : ReturnsInserted c.NI c.tbl a.base a.cfg (pos.zip spins)) {r : ℝ} (hr : 0 ≤ r) (corr : ℝ)
    (junk : ℕ → ℕ → ℕ → K) : metropolisD c junk s pos spins corr r = metropolis c junk s pos spins corr r := by
  obtain ⟨hb, hI⟩ := h.op hop
  have hw' : WellFormed c.tbl s.verts pos spins := by rw [h.cfg]; exact hw
  obtain ⟨s', o, e, -, hm, -⟩ := metropolis_spec ht h hop hw htr hr corr junk
  have hI' : TryInv c s' := (hm.op (by cases o.isSome <;> exact hop)).2
  unfold metropolisD
  rw [trySpinFlipD_eq ht hI hw'.trialOK (by rw [hb, h.cfg]; exact hu)]
  unfold metropolis at e ⊢
  refine res_bind_congr ?_
  rintro ⟨s1, det, f, w⟩ e1
  rw [e1, Res.bind_ok] at e
  simp only [] at e ⊢
  split_ifs at e ⊢
  · rw [Res.bind_eq_ok] at e
    obtain ⟨s2, e2, e3⟩ := e
    obtain rfl : s2 = s' := by injection e3 with e3; exact congrArg Prod.fst e3
    rw [performSpinFlipD_eq junk e2 hI', e2]
  · rw [Res.bind_eq_ok] at e
    obtain ⟨s2, e2, e3⟩ := e
    obtain rfl : s2 = s' := by injection e3 with e3; exact congrArg Prod.fst e3
    rw [rejectSpinFlipD_eq e2 hI', e2]

theorem returnsInserted_of_eq {NI : K} {tbl : List (VDef K)} {base cfg : List Vert} {ps : List (ℕ × ℤ)}
    (h : ∀ x ∈ ps, cfg.getD x.1 default = base.getD x.1 default ∨ (base.getD x.1 default).nonInt = true) :
    ReturnsInserted NI tbl base cfg ps := by
  intro x hx r _ h1 _
  rcases h x hx with e | e
  · rw [e] at h1; exact absurd rfl h1
  · unfold fieldOf; rw [if_pos e]

theorem flip_oneD (ht : TblOK c.NI c.nf c.tbl) (h : Means c s a) (hop : a.isOpen = true) {i : ℕ} {z : ℤ}
    (hi : i < a.cfg.length) (hz : z = -1 ∨ 0 ≤ z ∧ z < (termOf c.tbl (a.cfg.getD i default)).numAf)
    (htr : a.cfg.getD i default = a.base.getD i default ∨ z = -1 ∧ (a.base.getD i default).nonInt = true)
    {r : ℝ} (hr : 0 ≤ r) (corr : ℝ) (junk : ℕ → ℕ → ℕ → K) :
    metropolisD c junk s [i] [z] corr r = metropolis c junk s [i] [z] corr r := by
  refine metropolisD_eq ht h hop (pos := [i]) (spins := [z])
    ⟨rfl, by simp, by simpa using hi, by intro x hx; rw [List.zip_cons_cons, List.zip_nil_right, List.mem_singleton] at hx; rw [hx]; exact hz⟩
    (fun fl _ => ?_) (returnsInserted_of_eq ?_) hr corr junk
  · rcases htr with q | ⟨rfl, q⟩
    · left; exact onlyLeaves_of_eq (by intro x hx; rw [List.zip_cons_cons, List.zip_nil_right, List.mem_singleton] at hx; rw [hx]; exact q) fl
    · right; exact onlyReturns_hide q fl
  · intro x hx
    rw [List.zip_cons_cons, List.zip_nil_right, List.mem_singleton] at hx
    rw [hx]
    exact htr.imp id And.right

theorem flip_twoD (ht : TblOK c.NI c.nf c.tbl) (h : Means c s a) (hop : a.isOpen = true) {i k : ℕ} (hik : i ≠ k)
    (hi : i < a.cfg.length) (hk : k < a.cfg.length) (hib : a.cfg.getD i default = a.base.getD i default)
    (hkb : a.cfg.getD k default = a.base.getD k default)
    (hii : (a.cfg.getD i default).nonInt = false)
    (hty : (a.cfg.getD i default).type = (a.cfg.getD k default).type)
    {r : ℝ} (hr : 0 ≤ r) (corr : ℝ) (junk : ℕ → ℕ → ℕ → K) :
    metropolisD c junk s [i, k] [-1, (a.cfg.getD i default).af] corr r =
      metropolis c junk s [i, k] [-1, (a.cfg.getD i default).af] corr r := by
  have hv := h.vertOK (a.cfg.getD i default) (by rw [List.getD_eq_getElem _ _ hi]; exact List.getElem_mem _)
  obtain ⟨af0, af1⟩ := hv.2 hii
  have hterm : termOf c.tbl (a.cfg.getD k default) = termOf c.tbl (a.cfg.getD i default) := by
    unfold termOf; rw [hty]
  have key : ∀ x ∈ [i, k].zip [-1, (a.cfg.getD i default).af], a.cfg.getD x.1 default = a.base.getD x.1 default := by
    intro x hx
    rw [List.zip_cons_cons, List.zip_cons_cons, List.zip_nil_right] at hx
    rcases List.mem_cons.mp hx with rfl | hx
    · exact hib
    · rw [List.mem_singleton] at hx
      subst hx
      exact hkb
  refine metropolisD_eq ht h hop (pos := [i, k]) (spins := [-1, (a.cfg.getD i default).af])
    ⟨rfl, by simpa using hik, by simp [hi, hk], ?_⟩ (fun fl _ => Or.inl (onlyLeaves_of_eq key fl))
    (returnsInserted_of_eq fun x hx => Or.inl (key x hx)) hr corr junk
  intro x hx
  rw [List.zip_cons_cons, List.zip_cons_cons, List.zip_nil_right] at hx
  rcases List.mem_cons.mp hx with rfl | hx
  · left; rfl
  · rw [List.mem_singleton] at hx
    subst hx
    right
    exact ⟨af0, by rw [hterm]; exact af1⟩

/-! ## Insertions and removals -/

theorem insRemTurnD_eq (ht : TblOK c.NI c.nf c.tbl) {beta : ℝ} {kIns maxOrder : ℕ} {sz : ℝ}
    {m : Mgr} (hm : m = Mgr.create beta kIns maxOrder sz c.tbl) {u : ℕ → ℝ} (hu : ∀ k, 0 ≤ u k ∧ u k < 1)
    {a0 : Abs} {w0 : K} {n0 N : ℕ} {x : Mgr.InsRem K} (h : InsInv c a0 w0 n0 x a)
    (hN : a.cfg.length = n0 + perIns c * N) {tryIns : List Bool} {i : ℕ} (J : ℕ → ℕ → ℕ → ℕ → ℕ → K) (Us : ℝ) :
    m.insRemTurnD c J u Us ((List.range N).map fun i => n0 + perIns c * i) (List.replicate N (perIns c)) tryIns x i =
      m.insRemTurn c J u Us ((List.range N).map fun i => n0 + perIns c * i) (List.replicate N (perIns c)) tryIns x i := by
  have hlen : x.s.verts = a.cfg := h.means.cfg
  unfold Mgr.insRemTurnD Mgr.insRemTurn
  refine res_bind_congr fun b _ => ?_
  congr 1
  cases b with
  | true =>
    rw [if_pos rfl, if_pos rfl]
    refine res_bind_congr fun q hq => res_bind_congr fun n hn => ?_
    split
    · rfl
    have hq := Res.get_eq_ok.mp hq
    have hn := Res.get_eq_ok.mp hn
    have hxN : x.ins < N := by
      by_contra hge
      rw [List.getElem?_eq_none (by simpa using hge)] at hn
      cases hn
    rw [List.getElem?_map, List.getElem?_range hxN] at hq
    rw [List.getElem?_replicate, if_pos hxN] at hn
    obtain rfl : n0 + perIns c * x.ins = q := by injection hq
    obtain rfl : perIns c = n := by injection hn
    have hmul : perIns c * x.ins + perIns c ≤ perIns c * N := by
      calc perIns c * x.ins + perIns c = perIns c * (x.ins + 1) := by ring
        _ ≤ _ := Nat.mul_le_mul_left _ hxN
    congr 1
    unfold Mgr.insertionStepD Mgr.insertionStep
    refine res_bind_congr fun _ _ => ?_
    by_cases h0 : perIns c = 0
    · rw [if_pos h0, if_pos h0]
    · rw [if_neg h0, if_neg h0]
      have h1 : perIns c = 1 := by unfold perIns at h0 ⊢; split at h0 <;> simp_all
      rw [h1] at hN hmul ⊢
      simp only [one_mul] at hN hmul ⊢
      have hil : n0 + x.ins < a.cfg.length := by omega
      have heq : a.cfg.getD (n0 + x.ins) default = a.base.getD (n0 + x.ins) default :=
        h.rest _ (by rw [h1, one_mul]) hil
      have hni := h.new (n0 + x.ins) (by omega) hil
      obtain ⟨f0, f1⟩ := h.afs (n0 + x.ins) (by omega) hil
      simp only [List.range_one, List.map_cons, List.map_nil, Nat.zero_add]
      refine res_bind_congr fun _ _ => res_bind_congr fun corr _ => ?_
      rw [hlen, flip_oneD ht h.means h.op hil (by right; rw [heq]; exact ⟨f0, f1⟩) (Or.inl heq) (hu x.p).1]
  | false =>
    rw [if_neg (by simp), if_neg (by simp)]
    congr 1
    unfold Mgr.removalStepD Mgr.removalStep
    refine res_bind_congr ?_
    rintro ⟨k, corr, p⟩ hk
    cases k with
    | none => rfl
    | some k =>
      refine res_bind_congr fun _ hkn => ?_
      have hkn : (x.s.verts.getD k default).nonInt = false := Res.assert_eq_ok.mp hkn
      rw [hlen] at hkn hk
      unfold Mgr.pickRemoval at hk
      rw [hm, candidates_spec (fun v hv => (h.means.vertOK v hv).1), Res.bind_ok] at hk
      have hkl : k < a.cfg.length := by
        split at hk
        · cases hk
        · rw [Res.bind_eq_ok] at hk
          obtain ⟨k', e, e'⟩ := hk
          obtain rfl : k' = k := by
            have := congrArg Prod.fst (Res.ok.inj e'); exact Option.some.inj this
          have := List.mem_of_getElem? (Res.get_eq_ok.mp e)
          exact List.mem_range.mp (List.mem_filter.mp this).1
      have haway : a.cfg.getD k default = a.base.getD k default ∨ (-1 : ℤ) = -1 ∧ (a.base.getD k default).nonInt = true := by
        rcases h.away k hkl with q | q | q
        · exact Or.inl q
        · rw [hkn] at q; cases q
        · exact Or.inr ⟨rfl, q⟩
      rw [flip_oneD ht h.means h.op hkl (Or.inl rfl) haway (hu p).1]

theorem insRemLoopD_eq (ht : TblOK c.NI c.nf c.tbl) {beta : ℝ} {kIns maxOrder : ℕ} {sz : ℝ}
    {m : Mgr} (hm : m = Mgr.create beta kIns maxOrder sz c.tbl) {u : ℕ → ℝ} (hu : ∀ k, 0 ≤ u k ∧ u k < 1)
    {a0 : Abs} {w0 : K} {n0 N : ℕ} {x : Mgr.InsRem K} (h : InsInv c a0 w0 n0 x a) (hx0 : x.ins = 0)
    (hN : a.cfg.length = n0 + perIns c * N) {tryIns : List Bool} (hc : tryIns.count true = N)
    (J : ℕ → ℕ → ℕ → ℕ → ℕ → K) (Us : ℝ) :
    Res.foldl (m.insRemTurnD c J u Us ((List.range N).map fun i => n0 + perIns c * i) (List.replicate N (perIns c)) tryIns) x
        (List.range tryIns.length) =
    Res.foldl (m.insRemTurn c J u Us ((List.range N).map fun i => n0 + perIns c * i) (List.replicate N (perIns c)) tryIns) x
        (List.range tryIns.length) := by
  have key : ∀ n ≤ tryIns.length, ∃ x' a', Res.foldl (m.insRemTurn c J u Us ((List.range N).map fun i => n0 + perIns c * i)
        (List.replicate N (perIns c)) tryIns) x (List.range n) = .ok x' ∧
      Res.foldl (m.insRemTurnD c J u Us ((List.range N).map fun i => n0 + perIns c * i)
        (List.replicate N (perIns c)) tryIns) x (List.range n) = .ok x' ∧
      InsInv c a0 w0 n0 x' a' ∧ a'.cfg.length = n0 + perIns c * N ∧ x'.ins = (tryIns.take n).count true := by
    intro n hn
    induction n with
    | zero => exact ⟨x, a, rfl, rfl, h, hN, by simpa using hx0⟩
    | succ n ih =>
      obtain ⟨x1, a1, e1, d1, i1, l1, n1⟩ := ih (by omega)
      have hg : tryIns[n]? = some tryIns[n] := List.getElem?_eq_getElem (by omega)
      have htake : tryIns.take (n + 1) = tryIns.take n ++ [tryIns[n]] := (List.take_append_getElem (by omega)).symm
      have hle : (tryIns.take (n + 1)).count true ≤ N := by
        rw [← hc]; exact (List.take_sublist _ _).count_le _
      obtain ⟨x2, a2, e2, i2, l2, n2⟩ := insRemTurn_spec ht hm hu i1 l1 hg (by
        intro hb
        rw [htake, hb, List.count_append, ← n1] at hle
        simp at hle
        omega) J Us
      refine ⟨x2, a2, ?_, ?_, i2, l2, ?_⟩
      · rw [List.range_succ, Res.foldl_append, e1]
        simp only [Res.bind_ok, Res.foldl_cons, Res.foldl_nil, e2]
      · rw [List.range_succ, Res.foldl_append, d1]
        simp only [Res.bind_ok, Res.foldl_cons, Res.foldl_nil]
        rw [insRemTurnD_eq ht hm hu i1 l1, e2]
        rfl
      · rw [n2, n1, htake, List.count_append]
        cases tryIns[n] <;> simp
  obtain ⟨x', a', e, d, -⟩ := key _ le_rfl
  rw [e, d]

theorem doInsRemD_eq (ht : TblOK c.NI c.nf c.tbl) (hf : FullTerms c) {beta : ℝ} {kIns maxOrder : ℕ} {sz : ℝ}
    {m : Mgr} (hm : m = Mgr.create beta kIns maxOrder sz c.tbl) {u : ℕ → ℝ} (hu : ∀ k, 0 ≤ u k ∧ u k < 1)
    (h : Means c s a) (hcl : a.isOpen = false) (J : ℕ → ℕ → ℕ → ℕ → ℕ → K) (Us : ℝ) (st : AccStat) (p : ℕ) :
    m.doInsRemD c J u Us s st p = m.doInsRem c J u Us s st p := by
  unfold Mgr.doInsRemD Mgr.doInsRem
  simp only []
  obtain ⟨tryIns, htry⟩ : ∃ l, l = (List.range (2 * m.kIns)).map fun i => decide (u (p + i) < 1 / 2) := ⟨_, rfl⟩
  have htl : tryIns.length = 2 * m.kIns := by rw [htry]; simp
  obtain ⟨g, eg, g1, g2, g3, g4, g5⟩ := genAll_spec (beta := beta) (kIns := kIns) (maxOrder := maxOrder) (sz := sz) hf hu
    s.verts.length (tryIns.count true) (p + 2 * m.kIns)
  rw [← hm] at eg
  rw [← htry, eg, Res.bind_ok, Res.bind_ok]
  obtain ⟨s1, e1, m1, ad1⟩ := start_spec ht h hcl (new := g.new) (fun v hv => (g2 v hv).type) (J 0 0) (J 0 1) (J 0 2)
  rw [initUpdateD_eq ht (h.cl hcl) (fun v hv => (g2 v hv).type), e1, Res.bind_ok, Res.bind_ok]
  have hcfg : (a.step (.start g.new)).cfg = a.cfg ++ fresh a.lastId g.new := rfl
  have hbase : (a.step (.start g.new)).base = a.cfg ++ fresh a.lastId g.new := rfl
  have hlen : (a.step (.start g.new)).cfg.length = a.cfg.length + perIns c * tryIns.count true := by
    rw [hcfg, List.length_append, fresh_length, g1]
  have hnew : ∀ i, a.cfg.length ≤ i → i < (a.step (.start g.new)).cfg.length →
      ∃ v, v ∈ g.new ∧ ∃ id, (a.step (.start g.new)).base.getD i default = { v with nonInt := true, uid := id } := by
    intro i h1 h2
    rw [hlen, ← g1] at h2
    have hi : i - a.cfg.length < g.new.length := by omega
    rw [hbase, getD_append_right' _ _ _ h1, fresh_getD hi, List.getD_eq_getElem _ _ hi]
    exact ⟨_, List.getElem_mem hi, _, rfl⟩
  have hinv : InsInv c a (weight c.NI c.nf c.G0 c.tbl a.cfg) a.cfg.length ⟨s1, 0, 1, st, g.p, []⟩ (a.step (.start g.new)) := by
    refine ⟨m1, rfl, (Reach.refl a).step ad1, rfl, ?_, ?_, ?_, fun _ _ => Or.inl rfl, fun _ _ _ => rfl, ?_⟩
    · intro i hi
      rw [hbase, List.getD_append _ _ _ _ hi, List.getD_eq_getElem _ _ hi]
      exact h.all_int hcl _ (List.getElem_mem hi)
    · intro i h1 h2
      obtain ⟨v, _, id, e⟩ := hnew i h1 h2
      rw [e]
    · intro i h1 h2
      obtain ⟨v, hv, id, e⟩ := hnew i h1 h2
      rw [e]
      exact ⟨(g2 v hv).af0, (g2 v hv).af1⟩
    · show 1 * _ = _
      rw [one_mul, hcfg, weight_start]
  obtain ⟨x', a', ex, ix, nx⟩ := insRemLoop_spec ht hm hu hinv rfl hlen rfl J Us
  have ed := insRemLoopD_eq ht hm hu hinv rfl hlen rfl J Us
  rw [g3, g4, h.cfg, ← htl, ed, ex, Res.bind_ok, Res.bind_ok]
  refine res_bind_congr fun _ _ => ?_
  rw [finalizeUpdateD_eq (ix.means.op ix.op).2]

/-! ## Spin flips -/

theorem spinFlipStepD_eq (ht : TblOK c.NI c.nf c.tbl) {u : ℕ → ℝ} (hu : ∀ k, 0 ≤ u k ∧ u k < 1)
    {a0 : Abs} {w0 w : K} {i : ℕ} {l : List ℕ} (h : FlipInv c a0 w0 (i :: l) s w a)
    (junk : ℕ → ℕ → ℕ → K) (fuel p : ℕ) :
    Mgr.spinFlipStepD c junk u fuel s i p = Mgr.spinFlipStep c junk u fuel s i p := by
  obtain ⟨hil, hib⟩ := h.todo i (by simp)
  have hcfg := h.means.cfg
  unfold Mgr.spinFlipStepD Mgr.spinFlipStep
  refine run_bind_congr fun v hv => run_bind_congr fun d hd => ?_
  have hv := Res.get_eq_ok.mp (lift_eq_ok hv)
  have hd := Res.get_eq_ok.mp (lift_eq_ok hd)
  rw [hcfg, List.getElem?_eq_getElem hil] at hv
  have hv : a.cfg.getD i default = v := by
    rw [List.getD_eq_getElem _ _ hil]; exact Option.some.inj hv
  have hterm : termOf c.tbl (a.cfg.getD i default) = d := by
    unfold termOf
    rw [hv, List.getD_eq_getElem?_getD, hd]
    rfl
  by_cases hn : d.numAf ≤ 1
  · rw [if_pos hn, if_pos hn]
  · rw [if_neg hn, if_neg hn]
    refine run_bind_congr ?_
    rintro ⟨x, p'⟩ hx
    obtain ⟨q1, q2, q3, q4⟩ := drawOther_ok hu hx
    simp only []
    rw [flip_oneD ht h.means h.op hil (Or.inr ⟨q1, by rw [hterm]; exact q3 (by omega)⟩) (Or.inl hib) (hu p').1]

theorem spinFlipLoopD_eq (ht : TblOK c.NI c.nf c.tbl) {u : ℕ → ℝ} (hu : ∀ k, 0 ≤ u k ∧ u k < 1)
    {a0 : Abs} {w0 w : K} {l : List ℕ} (hl : l.Nodup) (h : FlipInv c a0 w0 l s w a)
    (J : ℕ → ℕ → ℕ → ℕ → ℕ → K) (fuel p : ℕ) :
    Mgr.spinFlipLoopD c J u fuel l s w p = Mgr.spinFlipLoop c J u fuel l s w p := by
  induction l generalizing s w a p with
  | nil => rfl
  | cons i l ih =>
    rw [List.nodup_cons] at hl
    unfold Mgr.spinFlipLoopD Mgr.spinFlipLoop
    rw [spinFlipStepD_eq ht hu h]
    refine run_bind_congr ?_
    rintro ⟨s', o, p'⟩ e
    have hg := (spinFlipStep_total ht hu hl.1 h (J (l.length + 2) 0) p).good fuel
    rw [e] at hg
    obtain ⟨a', h'⟩ := hg
    exact ih hl.2 h' p'

theorem doSpinFlipD_eq (ht : TblOK c.NI c.nf c.tbl) (hf : FullTerms c) {u : ℕ → ℝ} (hu : ∀ k, 0 ≤ u k ∧ u k < 1)
    (m : Mgr) (h : Means c s a) (hcl : a.isOpen = false) (J : ℕ → ℕ → ℕ → ℕ → ℕ → K) (fuel p : ℕ) :
    m.doSpinFlipD c J u fuel s p = m.doSpinFlip c J u fuel s p := by
  unfold Mgr.doSpinFlipD Mgr.doSpinFlip
  refine run_bind_congr ?_
  rintro ⟨l, p1⟩ el
  have hg := (pickNumbers_total hu (min_le_right (2 * m.kIns) s.verts.length) p).good fuel
  rw [el] at hg
  obtain ⟨_, hnd, hlt⟩ := hg
  obtain ⟨s1, e1, m1, ad1⟩ := start_spec ht h hcl (new := []) (by simp) (J 0 0) (J 0 1) (J 0 2)
  simp only []
  rw [initUpdateD_eq ht (h.cl hcl) (by simp), e1]
  simp only [Run.lift_ok, Run.bind_ok]
  have hinv : FlipInv c a (weight c.NI c.nf c.G0 c.tbl a.cfg) l s1 1 (a.step (.start [])) := by
    refine ⟨m1, rfl, (Reach.refl a).step ad1, ?_, ?_⟩
    · intro i hi
      refine ⟨?_, rfl⟩
      show i < (a.cfg ++ []).length
      have := hlt i hi
      rw [h.cfg] at this
      simpa using this
    · show 1 * _ = weight c.NI c.nf c.G0 c.tbl (a.cfg ++ fresh a.lastId [])
      rw [one_mul, weight_start]
  rw [spinFlipLoopD_eq ht hu hnd hinv J fuel p1]
  refine run_bind_congr ?_
  rintro ⟨s2, w, p2⟩ e2
  have hg := (spinFlipLoop_total ht hu hnd hinv J p1).good fuel
  rw [e2] at hg
  obtain ⟨a', h'⟩ := hg
  have hI : TryInv c s2 := (h'.means.op h'.op).2
  simp only []
  rw [finalizeUpdateD_eq hI]

/-! ## Shifts -/

theorem shiftLoopD_eq (ht : TblOK c.NI c.nf c.tbl) {u : ℕ → ℝ} (hu : ∀ k, 0 ≤ u k ∧ u k < 1)
    {a0 : Abs} {w0 w : K} {n0 : ℕ} {l : List ℕ} {k : ℕ} (hk : n0 ≤ k) (h : FlipInv c a0 w0 [] s w a)
    (hn : n0 ≤ a.cfg.length) (htodo : ShiftTodo n0 a.base a.cfg l k) (J : ℕ → ℕ → ℕ → ℕ → ℕ → K) (p : ℕ) :
    Mgr.shiftLoopD c J u l k s w p = Mgr.shiftLoop c J u l k s w p := by
  induction l generalizing s w a k p with
  | nil => rfl
  | cons i l ih =>
    obtain ⟨⟨q1, q2, q3, q4, q5, q6, q7, q8⟩, q9⟩ := htodo
    have hi : i < a.cfg.length := by omega
    obtain ⟨s', o, new, enew, e1, e2, e3, e4⟩ := flip_two_spec ht h.means h.op (by omega) hi q3 q4 q5 q6 q7 q8 (hu p).1 1
      (J (l.length + 2) 0)
    have hinv : FlipInv c a0 w0 [] s' (w * o.getD 1) { a with cfg := if o.isSome then new else a.cfg } :=
      ⟨e3, h.op, h.reach.trans e4, by simp, decision_ratio (a' := a) ht h.means h.w e2⟩
    have hlen : (if o.isSome then new else a.cfg).length = a.cfg.length := by
      split
      · rw [enew, List.length_modify, List.length_modify]
      · rfl
    have key := ih (k := k + 1) (p := p + 1) (by omega) hinv (by show n0 ≤ _; rw [hlen]; exact hn) (by
      refine q9.mono (i := i) (k0 := k) (by omega) hk q1 q2 hlen ?_
      intro j hj1 hj2
      show (if o.isSome then new else a.cfg).getD j default = _
      split
      · rw [enew, getD_modify _ _ _ _ (by rw [List.length_modify]; exact q3), if_neg (by omega),
          getD_modify _ _ _ _ hi, if_neg (by omega)]
      · rfl)
    have e5 := flip_twoD ht h.means h.op (by omega) hi q3 q4 q5 q6 q8 (hu p).1 1 (J (l.length + 2) 0)
    unfold Mgr.shiftLoopD Mgr.shiftLoop
    rw [h.means.cfg, Res.get_of_lt hi, Res.get_of_lt q3]
    simp only [Res.bind_ok]
    refine res_bind_congr fun _ _ => ?_
    rw [List.getD_eq_getElem _ _ hi] at e1 e5
    rw [e5, e1]
    simp only [Res.bind_ok]
    refine res_bind_congr fun _ _ => ?_
    exact key

theorem doShiftD_eq (ht : TblOK c.NI c.nf c.tbl) (hf : FullTerms c) {u : ℕ → ℝ} (hu : ∀ k, 0 ≤ u k ∧ u k < 1)
    (m : Mgr) (h : Means c s a) (hcl : a.isOpen = false) (J : ℕ → ℕ → ℕ → ℕ → ℕ → K) (fuel p : ℕ) :
    m.doShiftD c J u fuel s p = m.doShift c J u fuel s p := by
  unfold Mgr.doShiftD Mgr.doShift
  simp only []
  refine run_bind_congr ?_
  rintro ⟨l, p1⟩ el
  have hg := (pickNumbers_total hu (min_le_left s.verts.length m.kIns) p).good fuel
  rw [el] at hg
  obtain ⟨_, hnd, hlt⟩ := hg
  have hlt : ∀ x ∈ l, x < a.cfg.length := by rw [← h.cfg]; exact hlt
  simp only []
  rw [h.cfg]
  obtain ⟨new, en, n1, n2⟩ := shiftNew_spec (m := m) (u := u) hlt p1
  have hty : ∀ i, i < a.cfg.length → (a.cfg.getD i default).type < c.tbl.length := by
    intro i hi
    rw [List.getD_eq_getElem _ _ hi]
    exact (h.vertOK _ (List.getElem_mem hi)).1
  have hln : ∀ j < l.length, l.getD j 0 < a.cfg.length := by
    intro j hj
    rw [List.getD_eq_getElem _ _ hj]
    exact hlt _ (List.getElem_mem hj)
  have hnt : ∀ v ∈ new, v.type < c.tbl.length := by
    intro v hv
    obtain ⟨j, hj, rfl⟩ := List.getElem_of_mem hv
    have := (n2 j (by omega)).1
    rw [List.getD_eq_getElem _ _ hj] at this
    rw [this]
    exact hty _ (hln j (by omega))
  obtain ⟨s1, e1, m1, ad1⟩ := start_spec ht h hcl (new := new) hnt (J 0 0) (J 0 1) (J 0 2)
  rw [en]
  simp only [Run.lift_ok, Run.bind_ok]
  rw [initUpdateD_eq ht (h.cl hcl) hnt, e1]
  simp only [Run.lift_ok, Run.bind_ok]
  have hinv : FlipInv c a (weight c.NI c.nf c.G0 c.tbl a.cfg) [] s1 1 (a.step (.start new)) := by
    refine ⟨m1, rfl, (Reach.refl a).step ad1, by simp, ?_⟩
    show 1 * _ = weight c.NI c.nf c.G0 c.tbl (a.cfg ++ fresh a.lastId new)
    rw [one_mul, weight_start]
  have htodo : ShiftTodo a.cfg.length (a.step (.start new)).base (a.step (.start new)).cfg l a.cfg.length := by
    show ShiftTodo a.cfg.length (a.cfg ++ fresh a.lastId new) (a.cfg ++ fresh a.lastId new) l a.cfg.length
    refine shiftTodo_start hnd hlt ?_ ?_
    · intro i hi
      rw [List.getD_append _ _ _ _ hi, List.getD_eq_getElem _ _ hi]
      exact h.all_int hcl _ (List.getElem_mem hi)
    · intro j hj
      have hjn : j < new.length := by omega
      rw [getD_append_right' _ _ _ (by omega), Nat.add_sub_cancel_left, fresh_getD hjn, List.length_append, fresh_length]
      refine ⟨by omega, rfl, ?_⟩
      rw [List.getD_append _ _ _ _ (hln j hj)]
      exact (n2 j hj).1
  have hn : a.cfg.length ≤ (a.step (.start new)).cfg.length := by
    show _ ≤ (a.cfg ++ fresh a.lastId new).length
    rw [List.length_append]; omega
  obtain ⟨s2, w2, a2, f1, f2⟩ := shiftLoop_spec ht hu le_rfl hinv hn htodo J (p1 + min a.cfg.length m.kIns)
  rw [shiftLoopD_eq ht hu le_rfl hinv hn htodo J, f1]
  simp only [Run.lift_ok, Run.bind_ok]
  rw [finalizeUpdateD_eq (f2.means.op f2.op).2]

/-! ## The chain -/

theorem stepD_eq (ht : TblOK c.NI c.nf c.tbl) (hf : FullTerms c) {beta : ℝ} {kIns maxOrder : ℕ} {sz : ℝ}
    {m : Mgr} (hm : m = Mgr.create beta kIns maxOrder sz c.tbl) {u : ℕ → ℝ} (hu : ∀ k, 0 ≤ u k ∧ u k < 1)
    {x : Walker K} (h : Closed c x.s) (J : ℕ → ℕ → ℕ → ℕ → ℕ → K) (fuel : ℕ) (a : Upd) :
    x.stepD m c J u fuel a = x.step m c J u fuel a := by
  obtain ⟨b, hb, hcl⟩ := h
  cases a with
  | insRem => unfold Walker.stepD Walker.step; rw [doInsRemD_eq ht hf hm hu hb hcl]
  | shift => unfold Walker.stepD Walker.step; rw [doShiftD_eq ht hf hu m hb hcl]
  | spinFlip => unfold Walker.stepD Walker.step; rw [doSpinFlipD_eq ht hf hu m hb hcl]
  | recompute => rfl

theorem walkerRunD_eq (ht : TblOK c.NI c.nf c.tbl) (hf : FullTerms c) {beta : ℝ} {kIns maxOrder : ℕ} {sz : ℝ}
    {m : Mgr} (hm : m = Mgr.create beta kIns maxOrder sz c.tbl) {u : ℕ → ℝ} (hu : ∀ k, 0 ≤ u k ∧ u k < 1)
    {x : Walker K} (h : Closed c x.s) (J : ℕ → ℕ → ℕ → ℕ → ℕ → ℕ → K) (fuel : ℕ) (l : List Upd) :
    x.runD m c J u fuel l = x.run m c J u fuel l := by
  induction l generalizing x with
  | nil => rfl
  | cons a l ih =>
    unfold Walker.runD Walker.run
    rw [stepD_eq ht hf hm hu h]
    refine run_bind_congr fun y hy => ?_
    have hg := (step_total ht hf hm hu h (J l.length) a).good fuel
    rw [hy] at hg
    exact ih hg

theorem passD_eq (ht : TblOK c.NI c.nf c.tbl) (hf : FullTerms c) {beta : ℝ} {kIns maxOrder : ℕ} {sz : ℝ}
    {m : Mgr} (hm : m = Mgr.create beta kIns maxOrder sz c.tbl) {u : ℕ → ℝ} (hu : ∀ k, 0 ≤ u k ∧ u k < 1)
    (a : SimPar) (q : MeasPar K) {s : Sim K} (h : Closed c s.x.w.s) (J : ℕ → ℕ → ℕ → ℕ → ℕ → ℕ → ℕ → K)
    (junk : ℕ → ℕ → ℕ → K) (fuel : ℕ) :
    s.passD a m q c J junk u fuel = s.pass a m q c J junk u fuel ∧
      ∀ s', s.pass a m q c J junk u fuel = .ok s' → Closed c s'.x.w.s := by
  have e1 : s.updateD a m c (J s.step) u fuel = s.update a m c (J s.step) u fuel := by
    unfold Sim.updateD Sim.update McState.runD McState.run
    rw [walkerRunD_eq ht hf hm hu h]
  have e2 : ∀ s', s.update a m c (J s.step) u fuel = .ok s' → Closed c s'.x.w.s := by
    intro s' e
    have hg := (run_total ht hf hm hu h (J s.step)
      (updateUpdates a.nIR a.nSh a.nSF a.steps.period s.step)).good fuel
    unfold Sim.update McState.run at e
    cases ew : s.x.w.run m c (J s.step) u fuel (updateUpdates a.nIR a.nSh a.nSF a.steps.period s.step) with
    | ok w =>
      rw [ew] at hg e
      simp only [Run.bind_ok, Run.pure_eq] at e
      obtain rfl := Run.ok.inj e
      simp only []
      split <;> exact hg
    | throw _ => rw [ew] at hg; exact hg.elim
    | ub => rw [ew] at hg; exact hg.elim
    | more => rw [ew] at e; cases e
  have e3 : ∀ s' : Sim K, Closed c s'.x.w.s → ∀ j, s'.measureD a q c j u = s'.measure a q c j u ∧
      ∀ s'', s'.measure a q c j u = .ok s'' → Closed c s''.x.w.s := by
    intro s' hc j
    have hD : s'.x.measureD q c j u = s'.x.measure q c j u := by
      obtain ⟨b, hb, hcl⟩ := hc
      unfold McState.measureD McState.measure measureObservablesD measureObservables
      rw [computeMD_eq ht (hb.cl hcl)]
    unfold Sim.measureD Sim.measure
    rw [hD]
    refine ⟨rfl, fun s'' e => ?_⟩
    split at e
    · obtain rfl := Run.ok.inj e
      exact hc
    · unfold McState.measure at e
      cases em : measureObservables q c j u s'.x.w.s s'.x.w.p with
      | ok r =>
        obtain ⟨r, p⟩ := r
        rw [em] at e
        simp only [Res.bind_ok, Res.pure_eq, Run.lift_ok, Run.bind_ok, Run.pure_eq] at e
        obtain rfl := Run.ok.inj e
        exact hc
      | throw _ => rw [em] at e; cases e
      | ub => rw [em] at e; cases e
  unfold Sim.passD Sim.pass
  rw [e1]
  constructor
  · exact run_bind_congr fun s' e => (e3 s' (e2 s' e) _).1
  · intro s'' e
    cases es : s.update a m c (J s.step) u fuel with
    | ok s' =>
      rw [es, Run.bind_ok] at e
      exact (e3 s' (e2 s' es) _).2 s'' e
    | throw _ => rw [es] at e; cases e
    | ub => rw [es] at e; cases e
    | more => rw [es] at e; cases e

theorem passesD_eq (ht : TblOK c.NI c.nf c.tbl) (hf : FullTerms c) {beta : ℝ} {kIns maxOrder : ℕ} {sz : ℝ}
    {m : Mgr} (hm : m = Mgr.create beta kIns maxOrder sz c.tbl) {u : ℕ → ℝ} (hu : ∀ k, 0 ≤ u k ∧ u k < 1)
    (a : SimPar) (q : MeasPar K) (n : ℕ) {s : Sim K} (h : Closed c s.x.w.s) (J : ℕ → ℕ → ℕ → ℕ → ℕ → ℕ → ℕ → K)
    (junk : ℕ → ℕ → ℕ → K) (fuel : ℕ) :
    Sim.passesD a m q c J junk u fuel s n = Sim.passes a m q c J junk u fuel s n := by
  induction n generalizing s with
  | zero => rfl
  | succ n ih =>
    obtain ⟨h1, h2⟩ := passD_eq ht hf hm hu a q h J junk fuel
    show (s.passD a m q c J junk u fuel >>= fun s => Sim.passesD a m q c J junk u fuel s n) =
      (s.pass a m q c J junk u fuel >>= fun s => Sim.passes a m q c J junk u fuel s n)
    rw [h1]
    exact run_bind_congr fun s' e => ih (h2 s' e)

end CTInt
