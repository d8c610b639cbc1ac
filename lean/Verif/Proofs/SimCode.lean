import Verif.Proofs.SimMoves
import Verif.Proofs.ManagerTotal

/-!
# The updates of the code do to the points what the simulated updates do
-/

set_option linter.all false

namespace CTInt

variable {K : Type} [RCLike K] [DecidableEq K]
variable {c : Ctx K} {s : Sub K} {a : Abs}

theorem Total.and {α : Type} {u : ℕ → ℝ} {f : ℕ → Run α} {P Q : α → Prop} (h : Total u f P)
    (hq : ∀ fuel r, f fuel = .ok r → Q r) : Total u f fun r => P r ∧ Q r := by
  refine ⟨fun fuel => ?_, h.ends⟩
  have := h.good fuel
  cases e : f fuel with
  | ok x => rw [e] at this; exact ⟨this, hq _ _ e⟩
  | more => trivial
  | throw e' => rw [e] at this; exact this
  | ub => rw [e] at this; exact this

theorem Total.mono {α : Type} {u : ℕ → ℝ} {f : ℕ → Run α} {P Q : α → Prop} (h : Total u f P)
    (hq : ∀ r, P r → Q r) : Total u f Q := by
  refine ⟨fun fuel => ?_, h.ends⟩
  have := h.good fuel
  cases e : f fuel with
  | ok x => rw [e] at this; exact hq _ this
  | more => trivial
  | throw e' => rw [e] at this; exact this
  | ub => rw [e] at this; exact this

theorem Total.returns {α : Type} {u : ℕ → ℝ} {f : ℕ → Run α} {P : α → Prop} (h : Total u f P) (hu : Fair u) :
    ∃ r, Returns f r ∧ P r := by
  obtain ⟨F, r, hF⟩ := h.ends hu
  refine ⟨r, ⟨F, hF⟩, ?_⟩
  have := h.good F
  rw [hF F le_rfl] at this
  exact this

theorem dropS_apply (p k : ℕ) (u : ℕ → ℝ) : dropS p u k = u (p + k) := rfl

theorem dropS_succ (p : ℕ) (u : ℕ → ℝ) : dropS 1 (dropS p u) = dropS (p + 1) u := dropS_drop 1 p u

/-! ## Random selection -/

theorem pickOne_sim {u : ℕ → ℝ} (hu : GoodS u) {N : ℕ} {l : List ℕ} (hl : ∀ x ∈ l, x < N) (hc : l.toFinset.card < N)
    {fuel p x p' : ℕ} (e : pickOne u N l fuel p = .ok (x, p')) : untilS l.toFinset N (dropS p u) = (x, dropS p' u) := by
  induction fuel generalizing p with
  | zero => cases e
  | succ f ih =>
    unfold pickOne at e
    simp only [Run.bind_eq_ok, Run.assert_eq_ok] at e
    obtain ⟨_, -, e⟩ := e
    by_cases hx : ⌊u p * (N : ℝ)⌋₊ ∈ l
    · rw [if_pos hx] at e
      rw [untilS_later (by rw [dropS_apply, Nat.add_zero]; exact List.mem_toFinset.2 hx)
        ((hu.drop p).hits (fun y hy => hl y (List.mem_toFinset.1 hy)) hc), dropS_succ]
      exact ih e
    · rw [if_neg hx] at e
      cases e
      rw [untilS_now (by rw [dropS_apply, Nat.add_zero]; exact fun h => hx (List.mem_toFinset.1 h)), dropS_succ]
      rfl

theorem pickLoop_sim {u : ℕ → ℝ} (hu : GoodS u) {x : List Pt} {l : List ℕ} (hl : ∀ i ∈ l, i < x.length) (hnd : l.Nodup)
    {n fuel p : ℕ} (hn : l.length + n ≤ x.length) {L : List ℕ} {p' : ℕ} (e : pickLoop u x.length fuel l n p = .ok (L, p')) :
    simPick^[n] ((l, x), dropS p u) = ((L, x), dropS p' u) ∧ L.length = l.length + n := by
  induction n generalizing l p with
  | zero => cases e; exact ⟨rfl, rfl⟩
  | succ n ih =>
    unfold pickLoop at e
    simp only [Run.bind_eq_ok] at e
    obtain ⟨⟨k, p1⟩, e1, e2⟩ := e
    obtain ⟨k1, k2, -⟩ := pickOne_ok e1
    have hcard : l.toFinset.card < x.length := by rw [List.toFinset_card_of_nodup hnd]; omega
    have e3 := pickOne_sim hu hl hcard e1
    rw [Function.iterate_succ_apply]
    have e4 : simPick ((l, x), dropS p u) = ((l ++ [k], x), dropS p1 u) := by
      unfold simPick
      rw [if_pos ⟨hnd, hl, by simp only []; omega⟩]
      simp only [e3]
    rw [e4]
    obtain ⟨f1, f2⟩ := ih (l := l ++ [k]) (by
      intro i hi
      rcases List.mem_append.1 hi with hi | hi
      · exact hl i hi
      · rw [List.mem_singleton] at hi; rw [hi]; exact k1)
      (by
        rw [List.nodup_append]
        refine ⟨hnd, by simp, ?_⟩
        intro i hi j hj
        rw [List.mem_singleton] at hj
        rintro rfl
        exact k2 (hj ▸ hi)) (by simp; omega) e2
    exact ⟨f1, by rw [f2]; simp; omega⟩

theorem simPick_stop {l : List ℕ} {x : List Pt} {v : ℕ → ℝ} (h : l.length = x.length) (n : ℕ) :
    simPick^[n] ((l, x), v) = ((l, x), v) := by
  refine Function.iterate_fixed ?_ n
  unfold simPick
  rw [if_neg]
  rintro ⟨-, -, q⟩
  simp only [] at q
  omega

theorem pickNumbers_sim {u : ℕ → ℝ} (hu : GoodS u) {x : List Pt} {k fuel p : ℕ} {L : List ℕ} {p' : ℕ}
    (e : pickNumbers u fuel x.length (min k x.length) p = .ok (L, p')) :
    simPick^[k] (([], x), dropS p u) = ((L, x), dropS p' u) := by
  obtain ⟨f1, f2⟩ := pickLoop_sim hu (l := []) (by simp) (by simp) (by simp) e
  by_cases hk : k ≤ x.length
  · rw [min_eq_left hk] at f1; exact f1
  · rw [min_eq_right (by omega)] at f1 f2
    obtain ⟨d, rfl⟩ : ∃ d, k = d + x.length := ⟨k - x.length, by omega⟩
    rw [Function.iterate_add_apply, f1]
    exact simPick_stop (by simpa using f2) d

theorem drawOther_sim {u : ℕ → ℝ} (hu : GoodS u) {n f : ℕ} (hn : 2 ≤ n) {now : ℤ} (hf : now = (f : ℤ)) (hfn : f < n)
    {fuel p p' : ℕ} {z : ℤ} (e : Mgr.drawOther u n now fuel p = .ok (z, p')) :
    untilS (nowState n f) n (dropS p u) = (z.toNat, dropS p' u) := by
  have hT : nowState n f = {f} := by
    unfold nowState
    rw [Finset.inter_singleton_of_mem (Finset.mem_range.2 hfn)]
  rw [hT]
  induction fuel generalizing p with
  | zero => cases e
  | succ fuel ih =>
    unfold Mgr.drawOther at e
    simp only [] at e
    by_cases hx : ((⌊u p * (n : ℝ)⌋₊ : ℕ) : ℤ) = now
    · rw [if_pos hx] at e
      have hx' : ⌊u p * (n : ℝ)⌋₊ = f := by rw [hf] at hx; exact_mod_cast hx
      rw [untilS_later (by rw [dropS_apply, Nat.add_zero]; exact Finset.mem_singleton.2 hx')
        ((hu.drop p).hits (fun y hy => by rw [Finset.mem_singleton.1 hy]; exact hfn) (by rw [Finset.card_singleton]; omega)), dropS_succ]
      exact ih e
    · rw [if_neg hx] at e
      cases e
      rw [untilS_now (by
        rw [dropS_apply, Nat.add_zero, Finset.mem_singleton]
        intro q
        exact hx (by rw [hf, q])), dropS_succ]
      rfl

/-! ## Positions of the interacting vertices -/

/-- The positions of the interacting vertices. -/
noncomputable def visOf (vs : List Vert) : List ℕ := (List.range vs.length).filter fun i => !(vs.getD i default).nonInt

theorem mem_visOf {vs : List Vert} {i : ℕ} : i ∈ visOf vs ↔ i < vs.length ∧ (vs.getD i default).nonInt = false := by
  unfold visOf
  rw [List.mem_filter, List.mem_range]
  simp

theorem visOf_sorted (vs : List Vert) : (visOf vs).Pairwise (· < ·) := List.Pairwise.filter _ List.pairwise_lt_range

theorem visOf_eq {vs : List Vert} {L : List ℕ} (hL : L.Pairwise (· < ·))
    (h : ∀ i, i ∈ L ↔ i < vs.length ∧ (vs.getD i default).nonInt = false) : visOf vs = L := by
  have h1 : (visOf vs).Nodup := (visOf_sorted vs).imp fun q => Nat.ne_of_lt q
  have h2 : L.Nodup := hL.imp fun q => Nat.ne_of_lt q
  refine List.Perm.eq_of_pairwise (le := (· < ·)) ?_ (visOf_sorted vs) hL ((List.perm_ext_iff_of_nodup h1 h2).2 fun i => ?_)
  · intro i j _ _ q q'
    omega
  · rw [mem_visOf, h]

theorem interacting_visOf (vs : List Vert) : interacting vs = (visOf vs).map fun i => vs.getD i default := by
  induction vs using List.reverseRecOn with
  | nil => rfl
  | append_singleton vs v ih =>
    unfold visOf at ih ⊢
    rw [List.length_append, List.length_singleton, List.range_succ, List.filter_append, List.map_append,
      interacting_append, ih]
    congr 1
    · have : ((List.range vs.length).filter fun i => !((vs ++ [v]).getD i default).nonInt) =
          (List.range vs.length).filter fun i => !(vs.getD i default).nonInt := by
        apply List.filter_congr
        intro i hi
        rw [List.getD_append _ _ _ _ (List.mem_range.1 hi)]
      rw [this]
      apply List.map_congr_left
      intro i hi
      rw [List.getD_append _ _ _ _ (List.mem_range.1 (List.mem_filter.1 hi).1)]
    · have : (vs ++ [v]).getD vs.length default = v := by
        rw [List.getD_eq_getElem _ _ (by simp)]; simp
      rw [List.filter_cons, this, interacting_cons]
      cases v.nonInt <;> simp [interacting, this]

theorem ptsOf_getD {vs : List Vert} {i : ℕ} (hi : i < vs.length) : (ptsOf vs).getD i default = ptOf (vs.getD i default) := by
  unfold ptsOf
  rw [List.getD_eq_getElem _ _ (by simpa using hi), List.getD_eq_getElem _ _ hi, List.getElem_map]

theorem ptsOf_length (vs : List Vert) : (ptsOf vs).length = vs.length := List.length_map _

theorem ptsOf_interacting (vs : List Vert) : ptsOf (interacting vs) = curPts (visOf vs) (ptsOf vs) := by
  rw [interacting_visOf]
  unfold curPts
  rw [ptsOf, List.map_map]
  apply List.map_congr_left
  intro i hi
  rw [ptsOf_getD (mem_visOf.1 hi).1]
  rfl

theorem visOf_all {vs : List Vert} (h : ∀ v ∈ vs, v.nonInt = false) : visOf vs = List.range vs.length := by
  refine visOf_eq List.pairwise_lt_range fun i => ?_
  rw [List.mem_range]
  refine ⟨fun hi => ⟨hi, ?_⟩, fun q => q.1⟩
  rw [List.getD_eq_getElem _ _ hi]
  exact h _ (List.getElem_mem hi)

/-- Changing a vertex changes the list of points at its position. -/
theorem ptsOf_modify {vs : List Vert} {i : ℕ} (hi : i < vs.length) (f : Vert → Vert) :
    ptsOf (vs.modify i f) = (ptsOf vs).set i (ptOf (f (vs.getD i default))) := by
  obtain ⟨v, hv⟩ : ∃ v, v = vs.getD i default := ⟨_, rfl⟩
  rw [← hv]
  rw [List.getD_eq_getElem _ _ hi] at hv
  refine List.ext_getElem (by simp [ptsOf]) fun j h1 h2 => ?_
  simp only [ptsOf]
  rw [List.getElem_map, List.getElem_modify, List.getElem_set]
  split
  · rename_i q; subst q; exact congrArg (fun v => ptOf (f v)) hv.symm
  · rw [List.getElem_map]

theorem ptsOf_modify_same {vs : List Vert} {i : ℕ} (hi : i < vs.length) {f : Vert → Vert}
    (hf : ptOf (f (vs.getD i default)) = ptOf (vs.getD i default)) : ptsOf (vs.modify i f) = ptsOf vs := by
  rw [ptsOf_modify hi, hf, ← ptsOf_getD hi, set_getD_self]

theorem decision_isSome {r : ℝ} {R : K} {corr : ℝ} : (decision r R corr).isSome ↔ r < ‖R * (corr : K)‖ := by
  unfold decision
  split <;> simp_all

/-- The decision of the code is that of the simulated step. -/
theorem decision_step {vs ws : List Vert} {r corr : ℝ} :
    (decision r (weight c.NI c.nf c.G0 c.tbl ws / weight c.NI c.nf c.G0 c.tbl vs) corr).isSome ↔
      r < stepRatio c (ptsOf (interacting vs)) (ptsOf (interacting ws)) corr := by
  rw [decision_isSome]
  unfold stepRatio
  rw [wt_ptsOf, wt_ptsOf]

/-! ## Spin flips -/

theorem spinFlipStep_sim (ht : TblOK c.NI c.nf c.tbl) {u : ℕ → ℝ} (hu : GoodS u)
    {a0 : Abs} {w0 w : K} {i : ℕ} {l : List ℕ} (hi : i ∉ l) (h : FlipInv c a0 w0 (i :: l) s w a)
    (hint : ∀ v ∈ a.cfg, v.nonInt = false) (junk : ℕ → ℕ → ℕ → K) (p : ℕ) :
    Total u (fun fuel => Mgr.spinFlipStep c junk u fuel s i p)
      (fun r => ∃ a', FlipInv c a0 w0 l r.1 (w * r.2.1.getD 1) a' ∧ (∀ v ∈ a'.cfg, v.nonInt = false) ∧
        simFlip c i (ptsOf a.cfg, dropS p u) = (ptsOf a'.cfg, dropS r.2.2 u)) := by
  obtain ⟨hil, hib⟩ := h.todo i (by simp)
  have hcfg := h.means.cfg
  have hv := h.means.vertOK (a.cfg.getD i default) (by rw [List.getD_eq_getElem _ _ hil]; exact List.getElem_mem _)
  have hni : (a.cfg.getD i default).nonInt = false := by
    rw [List.getD_eq_getElem _ _ hil]; exact hint _ (List.getElem_mem _)
  obtain ⟨af0, af1⟩ := hv.2 hni
  have hns : numStates c.tbl ((ptsOf a.cfg).getD i default).1 = (termOf c.tbl (a.cfg.getD i default)).numAf := by
    rw [ptsOf_getD hil]; rfl
  have hpt := ptsOf_getD hil
  unfold Mgr.spinFlipStep
  rw [hcfg, Res.get_of_lt hil]
  simp only [Run.lift_ok, Run.bind_ok]
  have hv1 : (a.cfg[i]).type < c.tbl.length := by
    have := hv.1
    rw [List.getD_eq_getElem _ _ hil] at this
    exact this
  rw [Res.get_of_lt hv1]
  simp only [Run.lift_ok, Run.bind_ok]
  have hterm : termOf c.tbl (a.cfg.getD i default) = c.tbl[(a.cfg[i]).type]'hv1 := by
    unfold termOf; rw [List.getD_eq_getElem _ _ hil, List.getD_eq_getElem _ _ hv1]
  by_cases hn : (c.tbl[(a.cfg[i]).type]'hv1).numAf ≤ 1
  · simp only [hn, if_true, Run.pure_eq]
    refine Total.ok ⟨a, ⟨h.means, h.op, h.reach, fun j hj => h.todo j (List.mem_cons_of_mem _ hj), ?_⟩, hint, ?_⟩
    · simpa using h.w
    · unfold simFlip
      simp only [hns]
      rw [if_pos (by rw [hterm]; exact hn)]
  · simp only [hn, if_false]
    refine ((drawOther_total hu.2 (by omega) _ p).and (Q := fun r => untilS (nowState (termOf c.tbl (a.cfg.getD i default)).numAf
      (a.cfg.getD i default).af.toNat) (termOf c.tbl (a.cfg.getD i default)).numAf (dropS p u) = (r.1.toNat, dropS r.2 u)) ?_).bind ?_
    · rintro fuel ⟨z, p'⟩ e
      rw [hterm]
      refine drawOther_sim hu (by omega) (Int.toNat_of_nonneg af0).symm (by rw [← hterm]; omega) ?_ (fuel := fuel)
      rw [List.getD_eq_getElem _ _ hil]
      exact e
    rintro ⟨x, p'⟩ ⟨⟨x0, x1, x2⟩, hs⟩
    obtain ⟨s', o, e1, e2, e3, e4⟩ := flip_one_spec ht h.means h.op hil (z := x)
      (Or.inr ⟨x0, by rw [hterm]; exact x1⟩) (Or.inl hib) (hu.2 p').1 1 junk
    simp only [e1, Run.lift_ok, Run.bind_ok, Run.pure_eq]
    have hint' : ∀ v ∈ a.cfg.modify i (flipTo · x), v.nonInt = false := by
      intro v hv
      obtain ⟨j, hj, rfl⟩ := List.getElem_of_mem hv
      rw [List.getElem_modify]
      split
      · unfold flipTo
        rw [if_neg (by omega)]
      · exact hint _ (List.getElem_mem _)
    refine Total.ok ⟨_, ⟨e3, h.op, h.reach.trans e4, ?_, decision_ratio (a' := a) ht h.means h.w e2⟩, ?_, ?_⟩
    · intro j hj
      obtain ⟨t1, t2⟩ := h.todo j (List.mem_cons_of_mem _ hj)
      have hne : i ≠ j := fun q => hi (q ▸ hj)
      show j < (if o.isSome then _ else _ : List Vert).length ∧ (if o.isSome then _ else _ : List Vert).getD j default = _
      split
      · rw [List.length_modify, getD_modify _ _ _ _ hil, if_neg hne]
        exact ⟨t1, t2⟩
      · exact ⟨t1, t2⟩
    · show ∀ v ∈ (if o.isSome then _ else _ : List Vert), _
      split
      · exact hint'
      · exact hint
    · unfold simFlip
      simp only [hns]
      rw [if_neg (by rw [hterm]; exact hn), hpt]
      have e5 : ptsOf (a.cfg.modify i (flipTo · x)) = (ptsOf a.cfg).set i ((ptOf (a.cfg.getD i default)).1, x.toNat, (ptOf (a.cfg.getD i default)).2.2) := by
        rw [ptsOf_modify hil]
        congr 1
        unfold flipTo
        rw [if_neg (by omega)]
        rfl
      have hd := decision_step (c := c) (vs := a.cfg) (ws := a.cfg.modify i (flipTo · x)) (r := u p') (corr := 1)
      rw [← e2, interacting_all hint, interacting_all hint', e5] at hd
      have hs' : untilS (nowState (termOf c.tbl (a.cfg.getD i default)).numAf (ptOf (a.cfg.getD i default)).2.1)
        (termOf c.tbl (a.cfg.getD i default)).numAf (dropS p u) = (x.toNat, dropS p' u) := hs
      rw [hs']
      simp only [dropS_succ, dropS_apply, Nat.add_zero]
      refine Prod.ext ?_ rfl
      simp only []
      by_cases ho : o.isSome = true
      · refine (if_pos (hd.1 ho)).trans ?_
        rw [if_pos ho]; exact e5.symm
      · refine (if_neg (fun q => ho (hd.2 q))).trans ?_
        rw [if_neg ho]

theorem spinFlipLoop_sim (ht : TblOK c.NI c.nf c.tbl) {u : ℕ → ℝ} (hu : GoodS u)
    {a0 : Abs} {w0 w : K} {l : List ℕ} (hl : l.Nodup) (h : FlipInv c a0 w0 l s w a)
    (hint : ∀ v ∈ a.cfg, v.nonInt = false) (J : ℕ → ℕ → ℕ → ℕ → ℕ → K) (p : ℕ) :
    Total u (fun fuel => Mgr.spinFlipLoop c J u fuel l s w p) (fun r => ∃ a', FlipInv c a0 w0 [] r.1 r.2.1 a' ∧
      (∀ v ∈ a'.cfg, v.nonInt = false) ∧ simFlips c l (ptsOf a.cfg, dropS p u) = (ptsOf a'.cfg, dropS r.2.2 u)) := by
  induction l generalizing s w a p with
  | nil => exact Total.ok ⟨a, h, hint, rfl⟩
  | cons i l ih =>
    rw [List.nodup_cons] at hl
    unfold Mgr.spinFlipLoop
    refine (spinFlipStep_sim ht hu hl.1 h hint _ p).bind ?_
    rintro ⟨s', o, p'⟩ ⟨a', h', hint', e⟩
    refine (ih hl.2 h' hint' p').mono ?_
    rintro ⟨s2, w2, p2⟩ ⟨a2, f1, f2, f3⟩
    refine ⟨a2, f1, f2, ?_⟩
    rw [simFlips, e]
    exact f3

/-- The object is between two batches and its vertices are those at the points `x`. -/
def At (c : Ctx K) (s : Sub K) (x : List Pt) : Prop := ∃ a, Means c s a ∧ a.isOpen = false ∧ ptsOf a.cfg = x

theorem doSpinFlip_sim (ht : TblOK c.NI c.nf c.tbl) (hf : FullTerms c) {u : ℕ → ℝ} (hu : GoodS u)
    (m : Mgr) {x : List Pt} (h : At c s x) (J : ℕ → ℕ → ℕ → ℕ → ℕ → K) (p : ℕ) :
    Total u (fun fuel => m.doSpinFlip c J u fuel s p) (fun r => ∃ y, At c r.1 y ∧
      simSelect (simFlips c) (2 * m.kIns) (x, dropS p u) = (y, dropS r.2.2 u)) := by
  obtain ⟨a, h, hcl, rfl⟩ := h
  have hlen : s.verts.length = (ptsOf a.cfg).length := by rw [h.cfg, ptsOf_length]
  unfold Mgr.doSpinFlip
  rw [hlen]
  refine ((pickNumbers_total hu.2 (min_le_right _ _) p).and
    (Q := fun r => simPick^[2 * m.kIns] (([], ptsOf a.cfg), dropS p u) = ((r.1, ptsOf a.cfg), dropS r.2 u))
    (fun fuel r e => pickNumbers_sim hu e)).bind ?_
  rintro ⟨l, p1⟩ ⟨⟨_, hnd, hlt⟩, hs⟩
  obtain ⟨s1, e1, m1, ad1⟩ := start_spec ht h hcl (new := []) (by simp) (J 0 0) (J 0 1) (J 0 2)
  simp only [e1, Run.lift_ok, Run.bind_ok]
  have hne := h.weight_ne_zero ht
  have hcfg : (a.step (.start [])).cfg = a.cfg := List.append_nil _
  have hinv : FlipInv c a (weight c.NI c.nf c.G0 c.tbl a.cfg) l s1 1 (a.step (.start [])) := by
    refine ⟨m1, rfl, (Reach.refl a).step ad1, ?_, ?_⟩
    · intro i hi
      refine ⟨?_, rfl⟩
      rw [hcfg]
      have := hlt i hi
      rw [ptsOf_length] at this
      exact this
    · rw [hcfg, one_mul]
  refine (spinFlipLoop_sim ht hu hnd hinv (by rw [hcfg]; exact h.all_int hcl) J p1).bind ?_
  rintro ⟨s2, w, p2⟩ ⟨a', h', hint', e'⟩
  obtain ⟨s3, e3, m3, ad3⟩ := finish_spec ht hf h'.means h'.op (J 1 0) (J 1 1) (J 1 2)
  simp only [e3, Run.lift_ok, Run.bind_ok, Run.pure_eq]
  refine Total.ok ⟨_, ⟨_, m3, rfl, rfl⟩, ?_⟩
  unfold simSelect
  simp only [hs]
  rw [hcfg] at e'
  rw [e']
  show _ = (ptsOf (interacting a'.cfg), _)
  rw [interacting_all hint']

/-! ## Shifts -/

theorem ptsOf_append (vs ws : List Vert) : ptsOf (vs ++ ws) = ptsOf vs ++ ptsOf ws := List.map_append

theorem ptsOf_fresh (k : ℕ) (new : List Vert) : ptsOf (fresh k new) = ptsOf new := by
  induction new generalizing k with
  | nil => rfl
  | cons v l ih =>
    have := ih (k + 1)
    unfold ptsOf at this ⊢
    rw [fresh, List.map_cons, List.map_cons, this]
    rfl

theorem shiftNew_sim {m : Mgr} {u : ℕ → ℝ} {vs : List Vert} {l : List ℕ} (hl : ∀ i ∈ l, i < vs.length) (p : ℕ)
    (q : List ℕ × ℕ) (ext : List Pt) :
    ∃ new, m.shiftNew u vs l p = .ok new ∧ new.length = l.length ∧
      (∀ j < l.length, (new.getD j default).type = (vs.getD (l.getD j 0) default).type ∧ (new.getD j default).nonInt = true ∧
        (new.getD j default).af = (vs.getD (l.getD j 0) default).af) ∧
      simCopies m.beta m.shiftStep l ((q, ptsOf vs ++ ext), dropS p u) =
        ((q, ptsOf vs ++ ext ++ ptsOf new), dropS (p + l.length) u) := by
  induction l generalizing p ext with
  | nil =>
    refine ⟨[], rfl, rfl, by simp, ?_⟩
    show ((q, ptsOf vs ++ ext), dropS p u) = ((q, ptsOf vs ++ ext ++ []), dropS (p + 0) u)
    rw [List.append_nil, Nat.add_zero]
  | cons i l ih =>
    have hi := hl i (by simp)
    obtain ⟨new, e, e1, e2, e3⟩ := ih (fun j hj => hl j (List.mem_cons_of_mem _ hj)) (p + 1)
      (ext ++ [shiftPt m.beta m.shiftStep (ptOf (vs.getD i default)) (u p)])
    unfold Mgr.shiftNew
    rw [Res.get_of_lt hi, e]
    refine ⟨_, rfl, by simp [e1], ?_, ?_⟩
    · intro j hj
      cases j with
      | zero =>
        rw [List.getD_cons_zero, List.getD_cons_zero, List.getD_eq_getElem _ _ hi]
        exact ⟨rfl, rfl, rfl⟩
      | succ j =>
        rw [List.getD_cons_succ, List.getD_cons_succ]
        exact e2 j (by simpa using hj)
    · rw [simCopies]
      have : simCopy m.beta m.shiftStep i ((q, ptsOf vs ++ ext), dropS p u) =
          ((q, ptsOf vs ++ (ext ++ [shiftPt m.beta m.shiftStep (ptOf (vs.getD i default)) (u p)])), dropS (p + 1) u) := by
        unfold simCopy
        simp only [dropS_succ, dropS_apply, Nat.add_zero]
        rw [List.getD_append _ _ _ _ (by rw [ptsOf_length]; exact hi), ptsOf_getD hi, List.append_assoc]
      rw [this, e3]
      refine Prod.ext (Prod.ext rfl ?_) (congrArg (fun k => dropS k u) (by simp only [List.length_cons]; omega))
      simp only [List.append_assoc, List.cons_append, List.nil_append]
      congr 2
      unfold ptsOf
      rw [List.map_cons]
      congr 1
      rw [List.getD_eq_getElem _ _ hi]
      rfl

theorem visOf_replace {cfg : List Vert} {i k : ℕ} {z : ℤ} (hi : i < cfg.length) (hk : k < cfg.length)
    (hik : i ≠ k) (hz : z ≠ -1) (hvis : ∀ j ∈ visOf cfg, j < k) :
    visOf ((cfg.modify i (flipTo · (-1))).modify k (flipTo · z)) = replaced (visOf cfg) i k := by
  refine visOf_eq ?_ fun j => ?_
  · unfold replaced
    rw [List.pairwise_append]
    refine ⟨List.Pairwise.filter _ (visOf_sorted cfg), by simp, ?_⟩
    intro j hj k' hk'
    rw [List.mem_singleton] at hk'
    rw [hk']
    exact hvis j (List.mem_filter.1 hj).1
  · unfold replaced
    rw [List.mem_append, List.mem_filter, mem_visOf, List.mem_singleton, List.length_modify, List.length_modify,
      getD_modify _ _ _ _ (by rw [List.length_modify]; exact hk), getD_modify _ _ _ _ hi]
    by_cases hkj : k = j
    · subst hkj
      rw [if_pos rfl]
      have : (flipTo (if i = k then flipTo (cfg.getD k default) (-1) else cfg.getD k default) z).nonInt = false := by
        conv_lhs => unfold flipTo
        rw [if_neg hz]
      exact ⟨fun _ => ⟨hk, this⟩, fun _ => Or.inr rfl⟩
    · rw [if_neg hkj]
      by_cases hij : i = j
      · subst hij
        rw [if_pos rfl]
        refine ⟨fun q => ?_, fun q => ?_⟩
        · rcases q with ⟨_, q⟩ | q
          · simp at q
          · exact absurd q hik
        · cases q.2
      · rw [if_neg hij]
        have h1 : j ≠ i := fun q => hij q.symm
        have h2 : j ≠ k := fun q => hkj q.symm
        simp [h1, h2]

theorem shiftLoop_sim (ht : TblOK c.NI c.nf c.tbl) {u : ℕ → ℝ} (hu : ∀ k, 0 ≤ u k ∧ u k < 1)
    {a0 : Abs} {w0 w : K} {n0 : ℕ} {l : List ℕ} {k : ℕ} (hk : n0 ≤ k) (h : FlipInv c a0 w0 [] s w a)
    (hn : n0 ≤ a.cfg.length) (htodo : ShiftTodo n0 a.base a.cfg l k)
    (haf : ∀ j < l.length, (a.base.getD (k + j) default).af = (a.base.getD (l.getD j 0) default).af)
    (hvis : ∀ j ∈ visOf a.cfg, j < k) (J : ℕ → ℕ → ℕ → ℕ → ℕ → K) (p : ℕ) :
    ∃ s' w' a', Mgr.shiftLoop c J u l k s w p = .ok (s', w') ∧ FlipInv c a0 w0 [] s' w' a' ∧ ptsOf a'.cfg = ptsOf a.cfg ∧
      simReplaces c l (((visOf a.cfg, k), ptsOf a.cfg), dropS p u) =
        (((visOf a'.cfg, k + l.length), ptsOf a.cfg), dropS (p + l.length) u) := by
  induction l generalizing s w a k p with
  | nil => exact ⟨s, w, a, rfl, h, rfl, rfl⟩
  | cons i l ih =>
    obtain ⟨⟨q1, q2, q3, q4, q5, q6, q7, q8⟩, q9⟩ := htodo
    have hi : i < a.cfg.length := by omega
    have hik : i ≠ k := by omega
    have haf0 : (a.cfg.getD k default).af = (a.cfg.getD i default).af := by
      have := haf 0 (by simp)
      rw [List.getD_cons_zero, Nat.add_zero] at this
      rw [q4, q5]; exact this
    have hv := h.means.vertOK (a.cfg.getD i default) (by rw [List.getD_eq_getElem _ _ hi]; exact List.getElem_mem _)
    obtain ⟨af0, af1⟩ := hv.2 q6
    obtain ⟨s', o, new, enew, e1, e2, e3, e4⟩ := flip_two_spec ht h.means h.op hik hi q3 q4 q5 q6 q7 q8 (hu p).1 1
      (J (l.length + 2) 0)
    have hinv : FlipInv c a0 w0 [] s' (w * o.getD 1) { a with cfg := if o.isSome then new else a.cfg } :=
      ⟨e3, h.op, h.reach.trans e4, by simp, decision_ratio (a' := a) ht h.means h.w e2⟩
    have hlen : (if o.isSome then new else a.cfg).length = a.cfg.length := by
      split
      · rw [enew, List.length_modify, List.length_modify]
      · rfl
    have hvnew : visOf new = replaced (visOf a.cfg) i k := by
      rw [enew]; exact visOf_replace hi q3 hik (by omega) hvis
    have hpnew : ptsOf new = ptsOf a.cfg := by
      rw [enew, ptsOf_modify_same (by rw [List.length_modify]; exact q3) (by
        rw [getD_modify _ _ _ _ hi, if_neg hik]
        unfold flipTo
        rw [if_neg (by omega)]
        unfold ptOf
        simp only []
        rw [haf0]), ptsOf_modify_same hi rfl]
    have hpts : ptsOf (if o.isSome then new else a.cfg) = ptsOf a.cfg := by
      split
      · exact hpnew
      · rfl
    obtain ⟨s2, w2, a2, f1, f2, f3, f4⟩ := ih (k := k + 1) (p := p + 1) (by omega) hinv (by show n0 ≤ _; rw [hlen]; exact hn) (by
      refine q9.mono (i := i) (k0 := k) (by omega) hk q1 q2 hlen ?_
      intro j hj1 hj2
      show (if o.isSome then new else a.cfg).getD j default = _
      split
      · rw [enew, getD_modify _ _ _ _ (by rw [List.length_modify]; exact q3), if_neg (by omega),
          getD_modify _ _ _ _ hi, if_neg (by omega)]
      · rfl) (by
      intro j hj
      have := haf (j + 1) (by simpa using hj)
      rw [List.getD_cons_succ, show k + (j + 1) = k + 1 + j by omega] at this
      exact this) (by
      intro j hj
      have hj : j ∈ visOf (if o.isSome then new else a.cfg) := hj
      split at hj
      · rw [hvnew] at hj
        unfold replaced at hj
        rcases List.mem_append.1 hj with hj | hj
        · have := hvis j (List.mem_filter.1 hj).1
          omega
        · rw [List.mem_singleton] at hj
          omega
      · have := hvis j hj
        omega)
    refine ⟨s2, w2, a2, ?_, f2, by rw [f3]; exact hpts, ?_⟩
    · unfold Mgr.shiftLoop
      rw [h.means.cfg, Res.get_of_lt hi, Res.get_of_lt q3]
      simp only [Res.bind_ok]
      rw [List.getD_eq_getElem _ _ hi] at q8 e1
      rw [List.getD_eq_getElem _ _ q3] at q8
      rw [Res.assert_true q8]
      simp only [Res.bind_ok]
      rw [e1]
      simp only [Res.bind_ok]
      rw [Res.assert_true (by simp)]
      exact f1
    · have hd := decision_step (c := c) (vs := a.cfg) (ws := new) (r := u p) (corr := 1)
      rw [← e2, ptsOf_interacting, ptsOf_interacting, hvnew, hpnew] at hd
      have f4 : simReplaces c l (((visOf (if o.isSome then new else a.cfg), k + 1), ptsOf (if o.isSome then new else a.cfg)),
        dropS (p + 1) u) = (((visOf a2.cfg, k + 1 + l.length), ptsOf (if o.isSome then new else a.cfg)), dropS (p + 1 + l.length) u) := f4
      rw [hpts] at f4
      have hst : simReplace c i (((visOf a.cfg, k), ptsOf a.cfg), dropS p u) =
          (((visOf (if o.isSome then new else a.cfg), k + 1), ptsOf a.cfg), dropS (p + 1) u) := by
        unfold simReplace
        simp only [dropS_succ, dropS_apply, Nat.add_zero]
        refine Prod.ext ?_ rfl
        simp only []
        by_cases ho : o.isSome = true
        · refine (if_pos (hd.1 ho)).trans ?_
          rw [if_pos ho, hvnew]
        · refine (if_neg (fun q => ho (hd.2 q))).trans ?_
          rw [if_neg ho]
      rw [simReplaces, hst, f4]
      refine Prod.ext (Prod.ext (Prod.ext rfl ?_) rfl) (congrArg (fun k => dropS k u) ?_)
      · simp only [List.length_cons]; omega
      · simp only [List.length_cons]; omega

theorem doShift_sim (ht : TblOK c.NI c.nf c.tbl) (hf : FullTerms c) {u : ℕ → ℝ} (hu : GoodS u)
    (m : Mgr) {x : List Pt} (h : At c s x) (J : ℕ → ℕ → ℕ → ℕ → ℕ → K) (p : ℕ) :
    Total u (fun fuel => m.doShift c J u fuel s p) (fun r => ∃ y, At c r.1 y ∧
      simSelect (simShifts c m.beta m.shiftStep) m.kIns (x, dropS p u) = (y, dropS r.2.2 u)) := by
  obtain ⟨a, h, hcl, rfl⟩ := h
  have hlen : s.verts.length = (ptsOf a.cfg).length := by rw [h.cfg, ptsOf_length]
  unfold Mgr.doShift
  rw [hlen]
  simp only []
  rw [min_comm]
  refine ((pickNumbers_total hu.2 (min_le_right _ _) p).and
    (Q := fun r => simPick^[m.kIns] (([], ptsOf a.cfg), dropS p u) = ((r.1, ptsOf a.cfg), dropS r.2 u))
    (fun fuel r e => pickNumbers_sim hu e)).bind ?_
  rintro ⟨l, p1⟩ ⟨⟨hll, hnd, hlt⟩, hs⟩
  have hll : l.length = min m.kIns (ptsOf a.cfg).length := hll
  have hlt : ∀ x ∈ l, x < a.cfg.length := by rw [← ptsOf_length]; exact hlt
  rw [h.cfg]
  obtain ⟨new, en, n1, n2, n3⟩ := shiftNew_sim (m := m) (u := u) hlt p1 (List.range a.cfg.length, a.cfg.length) []
  have hty : ∀ i, i < a.cfg.length → (a.cfg.getD i default).type < c.tbl.length := by
    intro i hi
    rw [List.getD_eq_getElem _ _ hi]
    exact (h.vertOK _ (List.getElem_mem hi)).1
  have hln : ∀ j < l.length, l.getD j 0 < a.cfg.length := by
    intro j hj
    rw [List.getD_eq_getElem _ _ hj]
    exact hlt _ (List.getElem_mem hj)
  obtain ⟨s1, e1, m1, ad1⟩ := start_spec ht h hcl (new := new) (by
    intro v hv
    obtain ⟨j, hj, rfl⟩ := List.getElem_of_mem hv
    have := (n2 j (by omega)).1
    rw [List.getD_eq_getElem _ _ hj] at this
    rw [this]
    exact hty _ (hln j (by omega))) (J 0 0) (J 0 1) (J 0 2)
  simp only [en, e1, Run.lift_ok, Run.bind_ok]
  have hne := h.weight_ne_zero ht
  have hcfg : (a.step (.start new)).cfg = a.cfg ++ fresh a.lastId new := rfl
  have hbase : (a.step (.start new)).base = a.cfg ++ fresh a.lastId new := rfl
  have hinv : FlipInv c a (weight c.NI c.nf c.G0 c.tbl a.cfg) [] s1 1 (a.step (.start new)) := by
    refine ⟨m1, rfl, (Reach.refl a).step ad1, by simp, ?_⟩
    show 1 * _ = weight c.NI c.nf c.G0 c.tbl (a.cfg ++ fresh a.lastId new)
    rw [one_mul, weight_start]
  have hfr : ∀ j < l.length, (a.cfg ++ fresh a.lastId new).getD (a.cfg.length + j) default =
      { new.getD j default with nonInt := true, uid := a.lastId + 1 + j } := by
    intro j hj
    rw [getD_append_right' _ _ _ (by omega), Nat.add_sub_cancel_left, fresh_getD (by omega)]
  have htodo : ShiftTodo a.cfg.length (a.step (.start new)).base (a.step (.start new)).cfg l a.cfg.length := by
    show ShiftTodo a.cfg.length (a.cfg ++ fresh a.lastId new) (a.cfg ++ fresh a.lastId new) l a.cfg.length
    refine shiftTodo_start hnd hlt ?_ ?_
    · intro i hi
      rw [List.getD_append _ _ _ _ hi, List.getD_eq_getElem _ _ hi]
      exact h.all_int hcl _ (List.getElem_mem hi)
    · intro j hj
      rw [hfr j hj, List.length_append, fresh_length]
      refine ⟨by omega, rfl, ?_⟩
      rw [List.getD_append _ _ _ _ (hln j hj)]
      exact (n2 j hj).1
  have hvis : visOf (a.step (.start new)).cfg = List.range a.cfg.length := by
    rw [hcfg]
    refine visOf_eq List.pairwise_lt_range fun i => ?_
    rw [List.mem_range, List.length_append, fresh_length]
    constructor
    · intro hi
      refine ⟨by omega, ?_⟩
      rw [List.getD_append _ _ _ _ hi, List.getD_eq_getElem _ _ hi]
      exact h.all_int hcl _ (List.getElem_mem hi)
    · rintro ⟨h1, h2⟩
      by_contra hge
      obtain ⟨j, rfl⟩ : ∃ j, i = a.cfg.length + j := ⟨i - a.cfg.length, by omega⟩
      rw [hfr j (by omega)] at h2
      cases h2
  have hpts : ptsOf (a.step (.start new)).cfg = ptsOf a.cfg ++ ptsOf new := by
    rw [hcfg, ptsOf_append, ptsOf_fresh]
  obtain ⟨s2, w2, a2, f1, f2, f3, f4⟩ := shiftLoop_sim ht hu.2 le_rfl hinv (by
    show _ ≤ (a.cfg ++ fresh a.lastId new).length
    rw [List.length_append]; omega) htodo (by
    intro j hj
    rw [hbase, hfr j hj, List.getD_append _ _ _ _ (hln j hj)]
    exact (n2 j hj).2.2) (by rw [hvis]; intro j hj; exact List.mem_range.1 hj) J (p1 + min m.kIns (ptsOf a.cfg).length)
  rw [← ptsOf_length] at f1
  simp only [f1, Run.lift_ok, Run.bind_ok]
  obtain ⟨s3, e3, m3, ad3⟩ := finish_spec ht hf f2.means f2.op (J 1 0) (J 1 1) (J 1 2)
  simp only [e3, Run.lift_ok, Run.bind_ok, Run.pure_eq]
  refine Total.ok ⟨_, ⟨_, m3, rfl, rfl⟩, ?_⟩
  unfold simSelect
  simp only [hs]
  unfold simShifts
  simp only []
  rw [List.append_nil] at n3
  rw [ptsOf_length, n3]
  rw [hvis, hpts, ← hll] at f4
  rw [f4]
  refine Prod.ext ?_ (congrArg (fun k => dropS k u) ?_)
  · show _ = ptsOf (interacting a2.cfg)
    rw [ptsOf_interacting, f3, hpts]
  · rw [← ptsOf_length, ← hll]
    omega

/-! ## Insertions and removals -/

theorem simBit_sim {u : ℕ → ℝ} (x : List Pt) (p n : ℕ) :
    simBit^[n] (([], x), dropS p u) = (((List.range n).map fun i => decide (u (p + i) < 1 / 2), x), dropS (p + n) u) := by
  induction n with
  | zero => rfl
  | succ n ih =>
    rw [Function.iterate_succ_apply', ih]
    unfold simBit
    simp only [dropS_succ, dropS_apply, Nat.add_zero, List.range_succ, List.map_append, List.map_cons, List.map_nil]
    refine Prod.ext ?_ rfl
    simp only []
    by_cases h : u (p + n) < 1 / 2
    · refine (if_pos h).trans ?_
      rw [decide_eq_true h]
    · refine (if_neg h).trans ?_
      rw [decide_eq_false h]

theorem genVertex_sim (hf : FullTerms c) (hT : c.tbl ≠ []) {beta : ℝ} {kIns maxOrder : ℕ} {sz : ℝ} {u : ℕ → ℝ}
    (hu : ∀ k, 0 ≤ u k ∧ u k < 1) (p : ℕ) :
    ∃ v, (Mgr.create beta kIns maxOrder sz c.tbl).genVertex c.tbl u p = .ok ([v], p + 3) ∧
      ptOf v = drawPt beta c.tbl (u p) (u (p + 1)) (u (p + 2)) := by
  unfold Mgr.genVertex Mgr.create
  simp only [List.length_range]
  have h0 : c.tbl.length ≠ 0 := by simpa using hT
  rw [if_neg h0]
  have h1 := floor_mul_lt (hu (p + 1)) (Nat.pos_of_ne_zero h0)
  have e1 : Res.get (List.range c.tbl.length) ⌊u (p + 1) * c.tbl.length⌋₊ = .ok ⌊u (p + 1) * c.tbl.length⌋₊ := by
    rw [Res.get_eq_ok, List.getElem?_range h1]
  rw [e1]
  simp only [Res.bind_ok]
  rw [Res.get_of_lt h1]
  simp only [Res.bind_ok]
  refine ⟨_, rfl, ?_⟩
  unfold ptOf drawPt numStates
  rw [List.getD_eq_getElem _ _ h1]
  rfl

theorem genAll_sim (hf : FullTerms c) (hT : c.tbl ≠ []) {beta : ℝ} {kIns maxOrder : ℕ} {sz : ℝ} {u : ℕ → ℝ}
    (hu : ∀ k, 0 ≤ u k ∧ u k < 1) (Nv0 n p : ℕ) (x : List Pt) {g : Mgr.GenAll}
    (e : (Mgr.create beta kIns maxOrder sz c.tbl).genAll c.tbl u Nv0 n p = .ok g) :
    (simDraw beta c.tbl)^[n] ((x, []), dropS p u) = ((x, ptsOf g.new), dropS g.p u) := by
  unfold Mgr.genAll at e
  induction n generalizing g with
  | zero => cases e; rfl
  | succ n ih =>
    rw [List.range_succ, Res.foldl_append, Res.bind_eq_ok] at e
    obtain ⟨g1, e1, e2⟩ := e
    obtain ⟨v, e', hv⟩ := genVertex_sim (beta := beta) (kIns := kIns) (maxOrder := maxOrder) (sz := sz) hf hT hu g1.p
    simp only [Res.bind_ok, Res.foldl_cons, Res.foldl_nil, e'] at e2
    cases e2
    rw [Function.iterate_succ_apply', ih e1]
    unfold simDraw
    simp only [dropS_drop, dropS_apply, Nat.add_zero, ptsOf_append]
    rw [← hv]
    rfl

theorem simTurns_snoc (c : Ctx K) (beta : ℝ) (M : ℕ) (fl : List Bool) (b : Bool) (j : ℕ) (z : (List Pt × List Pt) × (ℕ → ℝ)) :
    simTurns c beta M (fl ++ [b]) j z = if b then simIns c beta M (j + fl.count true) (simTurns c beta M fl j z)
      else simRem c beta (simTurns c beta M fl j z) := by
  induction fl generalizing j z with
  | nil => cases b <;> rfl
  | cons b' fl ih =>
    cases b'
    · rw [List.cons_append, simTurns, ih]
      simp [simTurns]
    · rw [List.cons_append, simTurns, ih]
      simp [simTurns, Nat.add_assoc, Nat.add_comm 1]

theorem visOf_insert {cfg : List Vert} {k : ℕ} {z : ℤ} (hk : k < cfg.length) (hz : z ≠ -1) (hvis : ∀ j ∈ visOf cfg, j < k) :
    visOf (cfg.modify k (flipTo · z)) = visOf cfg ++ [k] := by
  refine visOf_eq ?_ fun j => ?_
  · rw [List.pairwise_append]
    refine ⟨visOf_sorted cfg, by simp, ?_⟩
    intro j hj k' hk'
    rw [List.mem_singleton] at hk'
    rw [hk']
    exact hvis j hj
  · rw [List.mem_append, mem_visOf, List.mem_singleton, List.length_modify, getD_modify _ _ _ _ hk]
    by_cases hkj : k = j
    · subst hkj
      rw [if_pos rfl]
      have : (flipTo (cfg.getD k default) z).nonInt = false := by
        unfold flipTo
        rw [if_neg hz]
      exact ⟨fun _ => ⟨hk, this⟩, fun _ => Or.inr rfl⟩
    · rw [if_neg hkj]
      have h2 : j ≠ k := fun q => hkj q.symm
      exact ⟨fun q => q.resolve_right h2, fun q => Or.inl q⟩

theorem visOf_remove {cfg : List Vert} {i : ℕ} (hi : i < (visOf cfg).length) :
    visOf (cfg.modify (visOf cfg)[i] (flipTo · (-1))) = (visOf cfg).eraseIdx i := by
  have hnd : (visOf cfg).Nodup := (visOf_sorted cfg).imp fun q => Nat.ne_of_lt q
  obtain ⟨k, hk⟩ : ∃ k, k = (visOf cfg)[i] := ⟨_, rfl⟩
  have hkm : k ∈ visOf cfg := hk ▸ List.getElem_mem _
  rw [← hk]
  refine visOf_eq ((visOf_sorted cfg).sublist (List.eraseIdx_sublist ..)) fun j => ?_
  rw [List.length_modify, getD_modify _ _ _ _ (mem_visOf.1 hkm).1]
  have he : (visOf cfg).eraseIdx i = (visOf cfg).erase k := by
    rw [hk]; exact (List.Nodup.erase_getElem hnd i hi).symm
  rw [he, hnd.mem_erase_iff, mem_visOf]
  by_cases hkj : k = j
  · subst hkj
    rw [if_pos rfl]
    exact ⟨fun q => absurd rfl q.1, fun q => by cases q.2⟩
  · rw [if_neg hkj]
    exact ⟨fun q => q.2, fun q => ⟨fun q => hkj q.symm, q⟩⟩

theorem curPts_length (vis : List ℕ) (y : List Pt) : (curPts vis y).length = vis.length := List.length_map _

theorem curPts_append (vis : List ℕ) (k : ℕ) (y : List Pt) : curPts (vis ++ [k]) y = curPts vis y ++ [y.getD k default] := by
  unfold curPts; rw [List.map_append]; rfl

theorem curPts_eraseIdx (vis : List ℕ) (i : ℕ) (y : List Pt) : curPts (vis.eraseIdx i) y = (curPts vis y).eraseIdx i := by
  unfold curPts; rw [List.eraseIdx_map]

theorem insRemTurn_sim (ht : TblOK c.NI c.nf c.tbl) (hT : perIns c = 1) {beta : ℝ} {kIns maxOrder : ℕ} {sz : ℝ}
    {m : Mgr} (hm : m = Mgr.create beta kIns maxOrder sz c.tbl) {u : ℕ → ℝ} (hu : ∀ k, 0 ≤ u k ∧ u k < 1)
    {a0 : Abs} {w0 : K} {n0 N : ℕ} {x : Mgr.InsRem K} (h : InsInv c a0 w0 n0 x a)
    (hN : a.cfg.length = n0 + N) {tryIns : List Bool} {i : ℕ} {b : Bool} (hb : tryIns[i]? = some b)
    (hx : b = true → x.ins < N) (J : ℕ → ℕ → ℕ → ℕ → ℕ → K) {V : List Pt}
    (hV : ∀ j < N, V.getD j default = (ptsOf a.cfg).getD (n0 + j) default) :
    ∃ x' a', m.insRemTurn c J u 1 ((List.range N).map fun i => n0 + perIns c * i) (List.replicate N (perIns c)) tryIns x i = .ok x' ∧
      InsInv c a0 w0 n0 x' a' ∧ a'.cfg.length = n0 + N ∧ x'.ins = x.ins + (if b then 1 else 0) ∧
      ptsOf a'.cfg = ptsOf a.cfg ∧
      (if b then simIns c beta maxOrder x.ins ((curPts (visOf a.cfg) (ptsOf a.cfg), V), dropS x.p u)
        else simRem c beta ((curPts (visOf a.cfg) (ptsOf a.cfg), V), dropS x.p u)) =
        ((curPts (visOf a'.cfg) (ptsOf a.cfg), V), dropS x'.p u) := by
  have hlen : x.s.verts = a.cfg := h.means.cfg
  have hbelow : ∀ j ∈ visOf a.cfg, j < n0 + x.ins := by
    intro j hj
    obtain ⟨h1, h2⟩ := mem_visOf.1 hj
    by_contra hge
    have e1 := h.rest j (by rw [hT, one_mul]; omega) h1
    have e2 := h.new j (by omega) h1
    rw [← e1, h2] at e2
    cases e2
  have hcount : (a.cfg.filter fun v => !v.nonInt).length = (visOf a.cfg).length := by
    have := interacting_range a.cfg
    unfold visOf
    rw [this]; rfl
  unfold Mgr.insRemTurn
  rw [Res.get_eq_ok.mpr hb]
  simp only [Res.bind_ok]
  cases b with
  | true =>
    have hxN := hx rfl
    simp only [if_true]
    rw [Res.get_eq_ok.mpr (show ((List.range N).map fun i => n0 + perIns c * i)[x.ins]? = some (n0 + perIns c * x.ins) by
      rw [List.getElem?_map, List.getElem?_range hxN]; rfl)]
    rw [Res.get_eq_ok.mpr (show (List.replicate N (perIns c))[x.ins]? = some (perIns c) by
      rw [List.getElem?_replicate, if_pos hxN])]
    simp only [Res.bind_ok]
    rw [hT, one_mul, hlen, hcount]
    have hmm : m.maxOrder = maxOrder := by rw [hm]; rfl
    rw [hmm]
    by_cases hmax : (visOf a.cfg).length + 1 > maxOrder
    · rw [if_pos hmax]
      refine ⟨_, a, rfl, ?_, hN, rfl, rfl, ?_⟩
      · refine ⟨h.means, h.op, h.reach, h.len, h.old, h.new, h.afs, h.away, ?_, ?_⟩
        · intro j h1 h2
          have h1 : n0 + perIns c * (x.ins + 1) ≤ j := h1
          have : perIns c * x.ins ≤ perIns c * (x.ins + 1) := Nat.mul_le_mul_left _ (by omega)
          exact h.rest j (by omega) h2
        · show x.w * 1 * w0 = _
          rw [mul_one]; exact h.w
      · unfold simIns
        simp only [curPts_length]
        rw [if_pos hmax]
    · rw [if_neg hmax]
      unfold Mgr.insertionStep
      rw [Res.assert_true (by rw [hlen]; omega)]
      simp only [Res.bind_ok]
      rw [if_neg (by omega)]
      have hil : n0 + x.ins < a.cfg.length := by omega
      have heq : a.cfg.getD (n0 + x.ins) default = a.base.getD (n0 + x.ins) default :=
        h.rest _ (by rw [hT, one_mul]) hil
      have hni := h.new (n0 + x.ins) (by omega) hil
      obtain ⟨f0, f1⟩ := h.afs (n0 + x.ins) (by omega) hil
      simp only [List.range_one, List.map_cons, List.map_nil, Nat.zero_add]
      rw [hlen, Res.assert_true (by intro j hj; rw [List.mem_singleton] at hj; rw [hj, heq]; exact hni)]
      simp only [Res.bind_ok, if_true]
      have hcand : m.corrIns a.cfg = .ok (beta * c.tbl.length / (((visOf a.cfg).length : ℝ) + 1)) := by
        unfold Mgr.corrIns
        rw [hm, candidates_spec (fun v hv => (h.means.vertOK v hv).1)]
        simp only [Res.bind_ok]
        unfold Mgr.create
        simp only [List.length_range]
        rfl
      rw [hcand]
      simp only [Res.bind_ok]
      obtain ⟨s', o, e1, e2, e3, e4⟩ := flip_one_spec ht h.means h.op hil (z := (a.cfg.getD (n0 + x.ins) default).af)
        (by right; rw [heq]; exact ⟨f0, f1⟩) (Or.inl heq) (hu x.p).1
        (beta * c.tbl.length / (((visOf a.cfg).length : ℝ) + 1) * 1 ^ 1) (J (i + 2) 0)
      rw [e1]
      simp only [Res.bind_ok]
      have hz : (a.cfg.getD (n0 + x.ins) default).af ≠ -1 := by rw [heq]; omega
      obtain ⟨new, hnew⟩ : ∃ new, new = a.cfg.modify (n0 + x.ins) (flipTo · (a.cfg.getD (n0 + x.ins) default).af) := ⟨_, rfl⟩
      have hvnew : visOf new = visOf a.cfg ++ [n0 + x.ins] := by rw [hnew]; exact visOf_insert hil hz hbelow
      have hpnew : ptsOf new = ptsOf a.cfg := by
        rw [hnew]
        exact ptsOf_modify_same hil (by unfold flipTo; rw [if_neg hz]; rfl)
      have hd := decision_step (c := c) (vs := a.cfg) (ws := new) (r := u x.p)
        (corr := beta * c.tbl.length / (((visOf a.cfg).length : ℝ) + 1))
      have hi' := h.flip ht hil (Or.inr hni) e2 e3 e4 (ins := x.ins + 1) (by omega) (Or.inl (by rw [hT]; omega))
        (x.stat.count (decide (o.getD 1 ≠ 1))) (x.p + 1) (x.truth ++ [o])
      rw [one_pow, mul_one] at e2
      rw [← hnew] at e2 hi'
      rw [← e2, ptsOf_interacting, ptsOf_interacting, hvnew, hpnew, curPts_append, ← hV x.ins hxN] at hd
      refine ⟨_, _, rfl, hi', ?_, rfl, ?_, ?_⟩
      · simp only []
        split
        · rw [hnew, List.length_modify]; exact hN
        · exact hN
      · simp only []
        split
        · exact hpnew
        · rfl
      · unfold simIns
        simp only [curPts_length]
        rw [if_neg hmax]
        simp only [dropS_succ, dropS_apply, Nat.add_zero]
        refine Prod.ext ?_ rfl
        simp only []
        by_cases ho : o.isSome = true
        · refine (if_pos (hd.1 ho)).trans ?_
          rw [if_pos ho, hvnew, curPts_append, hV x.ins hxN]
        · refine (if_neg (fun q => ho (hd.2 q))).trans ?_
          rw [if_neg ho]
  | false =>
    simp only [Bool.false_eq_true, if_false]
    unfold Mgr.removalStep Mgr.pickRemoval
    rw [hlen, hm, candidates_spec (fun v hv => (h.means.vertOK v hv).1)]
    simp only [Res.bind_ok]
    rw [show ((List.range a.cfg.length).filter fun i => !(a.cfg.getD i default).nonInt) = visOf a.cfg from rfl]
    by_cases hc0 : (visOf a.cfg).length = 0
    · rw [if_pos hc0]
      refine ⟨_, a, rfl, ?_, hN, rfl, rfl, ?_⟩
      · refine ⟨h.means, h.op, h.reach, h.len, h.old, h.new, h.afs, h.away, fun j h1 h2 => h.rest j h1 h2, ?_⟩
        show x.w * 1 * w0 = _
        rw [mul_one]; exact h.w
      · unfold simRem
        simp only [curPts_length]
        rw [if_pos hc0]
    · rw [if_neg hc0]
      obtain ⟨q, hq⟩ : ∃ q, q = ⌊((visOf a.cfg).length : ℝ) * u x.p⌋₊ := ⟨_, rfl⟩
      have hfl : q < (visOf a.cfg).length := by
        rw [hq, mul_comm]; exact floor_mul_lt (hu x.p) (Nat.pos_of_ne_zero hc0)
      rw [← hq, Res.get_of_lt hfl]
      obtain ⟨k, hk⟩ : ∃ k, k = (visOf a.cfg)[q] := ⟨_, rfl⟩
      have hkm : k ∈ visOf a.cfg := hk ▸ List.getElem_mem _
      rw [← hk]
      obtain ⟨hkl, hkn⟩ := mem_visOf.1 hkm
      simp only [Res.bind_ok, Res.pure_eq]
      rw [Res.assert_true hkn]
      simp only [Res.bind_ok]
      have haway : a.cfg.getD k default = a.base.getD k default ∨ (-1 : ℤ) = -1 ∧ (a.base.getD k default).nonInt = true := by
        rcases h.away k hkl with q | q | q
        · exact Or.inl q
        · rw [hkn] at q; cases q
        · exact Or.inr ⟨rfl, q⟩
      obtain ⟨s', o, e1, e2, e3, e4⟩ := flip_one_spec ht h.means h.op hkl (z := -1) (Or.inl rfl) haway (hu (x.p + 1)).1
        ((visOf a.cfg).length / ((Mgr.create beta kIns maxOrder sz c.tbl).beta * (Mgr.create beta kIns maxOrder sz c.tbl).sv.length) * 1⁻¹) (J (i + 2) 0)
      rw [e1]
      simp only [Res.bind_ok]
      have hlt : k < n0 + perIns c * x.ins ∨ o = none := by
        left
        rw [hT, one_mul]
        exact hbelow k hkm
      obtain ⟨new, hnew⟩ : ∃ new, new = a.cfg.modify k (flipTo · (-1)) := ⟨_, rfl⟩
      have hvnew : visOf new = (visOf a.cfg).eraseIdx q := by rw [hnew, hk]; exact visOf_remove hfl
      have hpnew : ptsOf new = ptsOf a.cfg := by rw [hnew]; exact ptsOf_modify_same hkl rfl
      have hd := decision_step (c := c) (vs := a.cfg) (ws := new) (r := u (x.p + 1))
        (corr := (visOf a.cfg).length / (beta * c.tbl.length))
      have hi' := h.flip ht hkl (Or.inl rfl) e2 e3 e4 le_rfl hlt
        (x.stat.count (decide (o.getD 1 ≠ 1))) (x.p + 1 + 1) (x.truth ++ [o])
      rw [inv_one, mul_one] at e2
      have e2 : o = decision (u (x.p + 1)) (weight c.NI c.nf c.G0 c.tbl (a.cfg.modify k (flipTo · (-1))) /
          weight c.NI c.nf c.G0 c.tbl a.cfg) ((visOf a.cfg).length / (beta * c.tbl.length)) := by
        rw [e2]
        congr 3
        exact congrArg (fun n : ℕ => (n : ℝ)) List.length_range
      rw [← hnew] at e2 hi'
      rw [← e2, ptsOf_interacting, ptsOf_interacting, hvnew, hpnew, curPts_eraseIdx] at hd
      refine ⟨_, _, rfl, hi', ?_, rfl, ?_, ?_⟩
      · simp only []
        split
        · rw [hnew, List.length_modify]; exact hN
        · exact hN
      · simp only []
        split
        · exact hpnew
        · rfl
      · unfold simRem
        simp only [curPts_length]
        rw [if_neg hc0]
        simp only [dropS_drop, dropS_apply, Nat.add_zero]
        have hq' : ⌊u x.p * ((visOf a.cfg).length : ℝ)⌋₊ = q := by rw [hq, mul_comm]
        simp only [hq']
        refine Prod.ext ?_ (congrArg (fun k => dropS k u) (by omega))
        simp only []
        by_cases ho : o.isSome = true
        · refine (if_pos (hd.1 ho)).trans ?_
          rw [if_pos ho, hvnew, curPts_eraseIdx]
        · refine (if_neg (fun q => ho (hd.2 q))).trans ?_
          rw [if_neg ho]

theorem doInsRem_sim (ht : TblOK c.NI c.nf c.tbl) (hf : FullTerms c) (hT : c.tbl ≠ []) {beta : ℝ} {kIns maxOrder : ℕ} {sz : ℝ}
    {m : Mgr} (hm : m = Mgr.create beta kIns maxOrder sz c.tbl) {u : ℕ → ℝ} (hu : ∀ k, 0 ≤ u k ∧ u k < 1)
    {x : List Pt} (h : At c s x) (J : ℕ → ℕ → ℕ → ℕ → ℕ → K) (st : AccStat) (p : ℕ) :
    ∃ r y, m.doInsRem c J u 1 s st p = .ok r ∧ At c r.s y ∧
      simInsRem c beta maxOrder kIns (x, dropS p u) = (y, dropS r.p u) := by
  obtain ⟨a, h, hcl, rfl⟩ := h
  have hper : perIns c = 1 := by unfold perIns; rw [if_neg (by simpa using hT)]
  have hmk : m.kIns = kIns := by rw [hm]; rfl
  unfold Mgr.doInsRem
  simp only []
  obtain ⟨tryIns, htry⟩ : ∃ l, l = (List.range (2 * m.kIns)).map fun i => decide (u (p + i) < 1 / 2) := ⟨_, rfl⟩
  have htl : tryIns.length = 2 * m.kIns := by rw [htry]; simp
  obtain ⟨g, eg, g1, g2, g3, g4, g5⟩ := genAll_spec (beta := beta) (kIns := kIns) (maxOrder := maxOrder) (sz := sz) hf hu
    s.verts.length (tryIns.count true) (p + 2 * m.kIns)
  have gs := genAll_sim hf hT hu s.verts.length (tryIns.count true) (p + 2 * m.kIns) (ptsOf a.cfg) eg
  rw [← hm] at eg
  rw [hper, one_mul] at g1
  obtain ⟨s1, e1, m1, ad1⟩ := start_spec ht h hcl (new := g.new) (fun v hv => (g2 v hv).type) (J 0 0) (J 0 1) (J 0 2)
  have hcfg : (a.step (.start g.new)).cfg = a.cfg ++ fresh a.lastId g.new := rfl
  have hbase : (a.step (.start g.new)).base = a.cfg ++ fresh a.lastId g.new := rfl
  have hlen : (a.step (.start g.new)).cfg.length = a.cfg.length + tryIns.count true := by
    rw [hcfg, List.length_append, fresh_length, g1]
  have hne := h.weight_ne_zero ht
  have hnew : ∀ i, a.cfg.length ≤ i → i < (a.step (.start g.new)).cfg.length →
      ∃ v, v ∈ g.new ∧ ∃ id, (a.step (.start g.new)).base.getD i default = { v with nonInt := true, uid := id } := by
    intro i h1 h2
    rw [hlen, ← g1] at h2
    have hi : i - a.cfg.length < g.new.length := by omega
    rw [hbase, getD_append_right' _ _ _ h1, fresh_getD hi, List.getD_eq_getElem _ _ hi]
    exact ⟨_, List.getElem_mem hi, _, rfl⟩
  have hinv : InsInv c a (weight c.NI c.nf c.G0 c.tbl a.cfg) a.cfg.length ⟨s1, 0, 1, st, g.p, []⟩ (a.step (.start g.new)) := by
    refine ⟨m1, rfl, (Reach.refl a).step ad1, rfl, ?_, ?_, ?_, fun _ _ => Or.inl rfl, fun _ _ _ => rfl, ?_⟩
    · intro i hi
      rw [hbase, List.getD_append _ _ _ _ hi, List.getD_eq_getElem _ _ hi]
      exact h.all_int hcl _ (List.getElem_mem hi)
    · intro i h1 h2
      obtain ⟨v, _, id, e⟩ := hnew i h1 h2
      rw [e]
    · intro i h1 h2
      obtain ⟨v, hv, id, e⟩ := hnew i h1 h2
      rw [e]
      exact ⟨(g2 v hv).af0, (g2 v hv).af1⟩
    · show 1 * _ = _
      rw [one_mul, hcfg, weight_start]
  have hpts : ptsOf (a.step (.start g.new)).cfg = ptsOf a.cfg ++ ptsOf g.new := by
    rw [hcfg, ptsOf_append, ptsOf_fresh]
  have hvis : curPts (visOf (a.step (.start g.new)).cfg) (ptsOf (a.step (.start g.new)).cfg) = ptsOf a.cfg := by
    rw [← ptsOf_interacting, hcfg, interacting_append, interacting_fresh, List.append_nil, interacting_all (h.all_int hcl)]
  obtain ⟨Y, hY⟩ : ∃ Y, Y = ptsOf (a.step (.start g.new)).cfg := ⟨_, rfl⟩
  have hV : ∀ j < tryIns.count true, (ptsOf g.new).getD j default = Y.getD (a.cfg.length + j) default := by
    intro j hj
    rw [hY, hpts, List.getD_append_right _ _ _ _ (by rw [ptsOf_length]; omega), ptsOf_length, Nat.add_sub_cancel_left]
  have key : ∀ n ≤ tryIns.length, ∃ x' a', Res.foldl (m.insRemTurn c J u 1
        ((List.range (tryIns.count true)).map fun i => a.cfg.length + perIns c * i)
        (List.replicate (tryIns.count true) (perIns c)) tryIns) ⟨s1, 0, 1, st, g.p, []⟩ (List.range n) = .ok x' ∧
      InsInv c a (weight c.NI c.nf c.G0 c.tbl a.cfg) a.cfg.length x' a' ∧ a'.cfg.length = a.cfg.length + tryIns.count true ∧
      x'.ins = (tryIns.take n).count true ∧ ptsOf a'.cfg = Y ∧
      simTurns c beta maxOrder (tryIns.take n) 0 ((ptsOf a.cfg, ptsOf g.new), dropS g.p u) =
        ((curPts (visOf a'.cfg) Y, ptsOf g.new), dropS x'.p u) := by
    intro n hn
    induction n with
    | zero =>
      refine ⟨_, _, rfl, hinv, hlen, by simp, hY.symm, ?_⟩
      rw [List.take_zero, simTurns, hY, hvis]
    | succ n ih =>
      obtain ⟨x1, a1, e1, i1, l1, n1, y1, t1⟩ := ih (by omega)
      have hg : tryIns[n]? = some tryIns[n] := List.getElem?_eq_getElem (by omega)
      have htake : tryIns.take (n + 1) = tryIns.take n ++ [tryIns[n]] := (List.take_append_getElem (by omega)).symm
      have hle : (tryIns.take (n + 1)).count true ≤ tryIns.count true := (List.take_sublist _ _).count_le _
      obtain ⟨x2, a2, e2, i2, l2, n2, y2, t2⟩ := insRemTurn_sim ht hper hm hu i1 l1 hg (by
        intro hb
        rw [htake, hb, List.count_append, ← n1] at hle
        simp at hle
        omega) J (V := ptsOf g.new) (by rw [y1]; exact hV)
      refine ⟨x2, a2, ?_, i2, l2, ?_, by rw [y2, y1], ?_⟩
      · rw [List.range_succ, Res.foldl_append, e1]
        simp only [Res.bind_ok, Res.foldl_cons, Res.foldl_nil, e2]
      · rw [n2, n1, htake, List.count_append]
        cases tryIns[n] <;> simp
      · rw [htake, simTurns_snoc, t1, ← n1, Nat.zero_add]
        rw [y1] at t2
        exact t2
  obtain ⟨x', a', ex, ix, -, nx, yx, tx⟩ := key _ le_rfl
  rw [List.take_length] at nx tx
  obtain ⟨s2, e2, m2, ad2⟩ := finish_spec ht hf ix.means ix.op (J 1 0) (J 1 1) (J 1 2)
  refine ⟨{ x' with s := s2 }, ptsOf (interacting a'.cfg), ?_, ⟨_, m2, rfl, rfl⟩, ?_⟩
  · rw [← htry, eg]
    simp only [Res.bind_ok]
    rw [e1]
    simp only [Res.bind_ok]
    rw [g3, g4, h.cfg, ← htl, ex]
    simp only [Res.bind_ok]
    rw [Res.assert_true nx]
    simp only [Res.bind_ok]
    rw [e2]
    rfl
  · unfold simInsRem
    simp only []
    rw [← hmk, simBit_sim, ← htry]
    unfold simFlags
    simp only []
    rw [gs, tx, ptsOf_interacting, yx]

/-! ## Sequences of updates -/

/-- An update on points. -/
noncomputable def simUpd (m : Mgr) (c : Ctx K) : Upd → List Pt × (ℕ → ℝ) → List Pt × (ℕ → ℝ)
  | .insRem => simInsRem c m.beta m.maxOrder m.kIns
  | .shift => simSelect (simShifts c m.beta m.shiftStep) m.kIns
  | .spinFlip => simSelect (simFlips c) (2 * m.kIns)
  | .recompute => id

/-- Several updates on points. -/
noncomputable def simRun (m : Mgr) (c : Ctx K) : List Upd → List Pt × (ℕ → ℝ) → List Pt × (ℕ → ℝ)
  | [], z => z
  | a :: l, z => simRun m c l (simUpd m c a z)

theorem step_sim (ht : TblOK c.NI c.nf c.tbl) (hf : FullTerms c) (hT : c.tbl ≠ []) {beta : ℝ} {kIns maxOrder : ℕ} {sz : ℝ}
    {m : Mgr} (hm : m = Mgr.create beta kIns maxOrder sz c.tbl) {u : ℕ → ℝ} (hu : GoodS u)
    {w : Walker K} {x : List Pt} (h : At c w.s x) (J : ℕ → ℕ → ℕ → ℕ → ℕ → K) (up : Upd) :
    ∃ w' y, Returns (fun fuel => w.step m c J u fuel up) w' ∧ At c w'.s y ∧
      simUpd m c up (x, dropS w.p u) = (y, dropS w'.p u) := by
  cases up with
  | insRem =>
    obtain ⟨r, y, e1, e2, e3⟩ := doInsRem_sim ht hf hT hm hu.2 h J w.stat w.p
    refine ⟨⟨r.s, r.stat, r.p⟩, y, ⟨0, fun fuel _ => ?_⟩, e2, ?_⟩
    · unfold Walker.step
      simp only [e1, Run.lift_ok, Run.bind_ok, Run.pure_eq]
    · have : simUpd m c .insRem = simInsRem c beta maxOrder kIns := by rw [hm]; rfl
      rw [this]
      exact e3
  | shift =>
    obtain ⟨⟨s', r, p'⟩, hr, y, e2, e3⟩ := (doShift_sim ht hf hu m h J w.p).returns hu.1
    refine ⟨⟨s', w.stat, p'⟩, y, ?_, e2, e3⟩
    show Returns (fun fuel => m.doShift c J u fuel w.s w.p >>= fun z => pure (⟨z.1, w.stat, z.2.2⟩ : Walker K)) _
    rw [Returns.bind_iff (g := fun _ z => pure (⟨z.1, w.stat, z.2.2⟩ : Walker K)) hr]
    exact Returns.const.2 rfl
  | spinFlip =>
    obtain ⟨⟨s', r, p'⟩, hr, y, e2, e3⟩ := (doSpinFlip_sim ht hf hu m h J w.p).returns hu.1
    refine ⟨⟨s', w.stat, p'⟩, y, ?_, e2, e3⟩
    show Returns (fun fuel => m.doSpinFlip c J u fuel w.s w.p >>= fun z => pure (⟨z.1, w.stat, z.2.2⟩ : Walker K)) _
    rw [Returns.bind_iff (g := fun _ z => pure (⟨z.1, w.stat, z.2.2⟩ : Walker K)) hr]
    exact Returns.const.2 rfl
  | recompute =>
    obtain ⟨a, h1, h2, h3⟩ := h
    obtain ⟨s', e, m'⟩ := step_spec ht h1 (call := .recompute) h2 (fun _ => J 0 0)
    refine ⟨⟨s', w.stat, w.p⟩, x, ⟨0, fun fuel _ => ?_⟩, ⟨_, m', h2, h3⟩, rfl⟩
    unfold Walker.step
    have e : w.s.recompute c = .ok s' := e
    simp only [e, Run.lift_ok, Run.bind_ok, Run.pure_eq]

theorem run_sim (ht : TblOK c.NI c.nf c.tbl) (hf : FullTerms c) (hT : c.tbl ≠ []) {beta : ℝ} {kIns maxOrder : ℕ} {sz : ℝ}
    {m : Mgr} (hm : m = Mgr.create beta kIns maxOrder sz c.tbl) {u : ℕ → ℝ} (hu : GoodS u)
    {w : Walker K} {x : List Pt} (h : At c w.s x) (J : ℕ → ℕ → ℕ → ℕ → ℕ → ℕ → K) (l : List Upd) :
    ∃ w' y, Returns (fun fuel => Walker.run m c J u fuel w l) w' ∧ At c w'.s y ∧
      simRun m c l (x, dropS w.p u) = (y, dropS w'.p u) := by
  induction l generalizing w x with
  | nil => exact ⟨w, x, Returns.const.2 rfl, h, rfl⟩
  | cons a l ih =>
    obtain ⟨w1, y1, r1, h1, e1⟩ := step_sim ht hf hT hm hu h (J l.length) a
    obtain ⟨w2, y2, r2, h2, e2⟩ := ih h1
    refine ⟨w2, y2, ?_, h2, ?_⟩
    · show Returns (fun fuel => w.step m c (J l.length) u fuel a >>= fun z => Walker.run m c J u fuel z l) _
      rw [Returns.bind_iff (g := fun fuel z => Walker.run m c J u fuel z l) r1]
      exact r2
    · rw [simRun, e1, e2]

end CTInt
