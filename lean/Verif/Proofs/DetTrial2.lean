import Verif.Proofs.DetTrial

/-!
# Trials that remove and add at the same time, and replacements (helper lemmas for C24, C25)
-/

set_option linter.all false

namespace CTInt

variable {K Cd Co T : Type} [Field K] [DecidableEq K] [LinearOrder T] {o : OpSys K Cd Co T}

theorem removalInsertion_ok {s : DM K Cd Co T} {A R A' : Conf Cd Co} {rem add : List (Cd × Co)}
    (h1 : PosOK o.tcd s.cd.ops s.cd.pos) (h2 : PosOK o.tc s.c.ops s.c.pos) (p1 : s.cd.ops.Perm A.cds)
    (p2 : s.c.ops.Perm A.cs) (hd : A.Distinct o) (hd' : A'.Distinct o) (a1 : A.cds.Perm (R.cds ++ rem.map Prod.fst))
    (a2 : A.cs.Perm (R.cs ++ rem.map Prod.snd)) (b1 : A'.cds.Perm (R.cds ++ add.map Prod.fst))
    (b2 : A'.cs.Perm (R.cs ++ add.map Prod.snd)) : DM.removalInsertionPossible o s rem add = .ok true := by
  have tm := removal_mem (o := o) a1 a2
  have tm' := removal_mem (o := o) b1 b2
  unfold Conf.Distinct at hd hd'
  rw [tm.nodup_iff] at hd
  rw [tm'.nodup_iff] at hd'
  have d1 := List.nodup_append.mp hd
  have d2 := List.nodup_append.mp hd'
  unfold DM.removalInsertionPossible
  rw [Res.throwIf_false, Res.bind_ok, if_neg]
  · simp [d1.2.1, d2.2.1, Res.pure_eq]
  · rw [not_not, pairTimes_mem (P := fun t => ¬ s.Exist t ∨ t ∈ DM.pairTimes o rem)]
    intro t ht
    by_cases he : s.Exist t
    · rw [exist_iff h1 h2 p1 p2, tm.mem_iff, List.mem_append] at he
      rcases he with he | he
      · exact absurd rfl (d2.2.2 t he t ht)
      · exact Or.inr he
    · exact Or.inl he
  · rw [not_not, pairTimes_mem (P := fun t => s.Exist t)]
    intro t ht
    rw [exist_iff h1 h2 p1 p2, tm.mem_iff]
    exact List.mem_append_right _ ht

/-- Removing pairs and adding pairs. -/
theorem trial_remAdd' (dbg : Bool) (junk : ℕ → ℕ → K) {s : DM K Cd Co T} {A R A' : Conf Cd Co} (h : Good o s A)
    {rem add : List (Cd × Co)} (hrem : rem ≠ []) (a1 : A.cds.Perm (R.cds ++ rem.map Prod.fst))
    (a2 : A.cs.Perm (R.cs ++ rem.map Prod.snd)) (b1 : A'.cds.Perm (R.cds ++ add.map Prod.fst))
    (b2 : A'.cs.Perm (R.cs ++ add.map Prod.snd)) (hd : A'.Distinct o) :
    ∃ s1 r, DM.tryRemoveAdd o junk rem add s = (.ok r, s1) ∧ (r = if R.det o = 0 then 0 else A'.det o / A.det o) ∧
      s1.mode = s.mode ∧ s1.state = .tryRemAdd ∧
      (R.det o ≠ 0 → A'.det o ≠ 0 → (s1.helper.inverse junk s1.Gjn s1.Gnj s1.Gnn).rows = A'.cds.length ∧
        ∃ s2, DM.performRemoveAdd o dbg junk s1 = (.ok (), s2) ∧ s2.mode = s.mode ∧ Good o s2 A' ∧
          ∃ (ps : List (Cd × Co)) (FA : List Cd) (FB : List Co), s2.removed = ps.reverse ∧ s2.nopAdded = add.length ∧
            s2.cd.ops = FA ++ add.map Prod.fst ∧ s2.c.ops = FB ++ add.map Prod.snd ∧
            (FA ++ ps.map Prod.fst).Perm A.cds ∧ (FB ++ ps.map Prod.snd).Perm A.cs) ∧
      ∃ s2, DM.rejectRemoveAdd o dbg s1 = (.ok (), s2) ∧ s2.mode = s.mode ∧ Good o s2 A := by
  obtain ⟨ps, S, S', X, p, FA, FB, e1, c1, o1, o2, lp, s1, s2, r1, r2, f1, f2, e2⟩ := moved_ok (o := o)
    (t := { s with state := .tryRemAdd, impossible := false }) (R := R) (rem := rem) (h.core.frame rfl rfl rfl rfl)
    h.scd h.sc h.pcds h.pcs a1 a2 h.dist
  have lA : A.cds.length = R.cds.length + rem.length := by rw [a1.length_eq]; simp
  have lA2 : A.cs.length = R.cs.length + rem.length := by rw [a2.length_eq]; simp
  have lR : R.cds.length = R.cs.length := by have := h.len; omega
  have lA' : A'.cds.length = R.cds.length + add.length := by rw [b1.length_eq]; simp
  have lA2' : A'.cds.length = A'.cs.length := by rw [lA', lR, b2.length_eq]; simp
  have lFA : FA.length = R.cds.length := f1.length_eq
  have lFB : FB.length = R.cds.length := by rw [f2.length_eq, lR]
  obtain ⟨ra, hra⟩ : ∃ r, r = orderSign o.tcd S.ops * orderSign o.tc S'.ops *
    (orderSign o.tcd FA * orderSign o.tc FB) := ⟨_, rfl⟩
  rw [← hra] at e2
  have k1 := cut_ok o1 c1.pcd s1
  have k2 := cut_ok o2 c1.pc s2
  have m1 : ((FA ++ add.map Prod.fst).map o.tcd).Nodup := by
    rw [(((f1.append_right _).trans b1.symm).map _).nodup_iff]; exact (List.nodup_append.mp hd).1
  have m2 : ((FB ++ add.map Prod.snd).map o.tc).Nodup := by
    rw [(((f2.append_right _).trans b2.symm).map _).nodup_iff]; exact (List.nodup_append.mp hd).2.1
  obtain ⟨U, U', e3, u1, u2, v1, v2⟩ := addNew_ok o (s := { s with
      state := .tryRemAdd, impossible := false, cd := cutSide o.tcd S FA (ps.map Prod.fst),
      c := cutSide o.tc S' FB (ps.map Prod.snd), inv := X, perm := p, removed := ps.reverse, permRat := ra })
      add k1 k2 (lFA.trans lFB.symm) m1 m2
  have u1 : U.ops = FA ++ add.map Prod.fst := u1
  have u2 : U'.ops = FB ++ add.map Prod.snd := u2
  obtain ⟨rb, hrb⟩ : ∃ r, r = orderSign o.tcd FA * orderSign o.tc FB *
    (orderSign o.tcd U.ops * orderSign o.tc U'.ops) := ⟨_, rfl⟩
  have e3 : DM.addNew o add _ = (.ok (orderSign o.tcd FA * orderSign o.tc FB *
    (orderSign o.tcd U.ops * orderSign o.tc U'.ops)), _) := e3
  rw [← hrb] at e3
  have L1 : U.ops.length = R.cds.length + add.length := by rw [u1]; simp [lFA]
  have L2 : U'.ops.length = R.cds.length + add.length := by rw [u2]; simp [lFB]
  obtain ⟨B, C, D, e4, ub⟩ := newBlocks_ok (o := o) (s := { s with
      state := .tryRemAdd, impossible := false, cd := U,
      c := U', inv := X, perm := p, removed := ps.reverse, permRat := ra * rb })
      (N := R.cds.length) (M := add.length) L1 L2
  have ub : UpBlocks R.cds.length add.length (greenAt o.G U'.ops U.ops) B C D := ub
  have iv : IsInvOf X (R.cds.length + rem.length) (greenAt o.G S'.ops S.ops) := by rw [← lA]; exact c1.inv
  have gF : ∀ i < R.cds.length, ∀ j < R.cds.length, greenAt o.G S'.ops S.ops i j = greenAt o.G FB FA i j := by
    intro i hi j hj
    rw [o1, o2, greenAt_append_left (by omega) (by omega)]
  have gU : ∀ i < R.cds.length, ∀ j < R.cds.length, greenAt o.G U'.ops U.ops i j = greenAt o.G S'.ops S.ops i j := by
    intro i hi j hj
    rw [gF i hi j hj, u1, u2, greenAt_append_left (by omega) (by omega)]
  have hdR : R.Distinct o := Distinct.part h.dist a1 a2
  have detR := det_ordered o f2 f1 lR hdR
  rw [lFA] at detR
  have hpiv : R.det o ≠ 0 ↔ detN R.cds.length (greenAt o.G S'.ops S.ops) ≠ 0 := by
    rw [detR, ← detN_congr' gF, mul_ne_zero_iff]
    exact ⟨fun h => h.2, fun h => ⟨sgn2_ne _ _ _ _, h⟩⟩
  obtain ⟨h0, hh1, d, e5, e6, hd0, e7⟩ : ∃ h0 hh1 d, Inc.Replace.mk' X B C D ⟨0, 0, junk⟩ ⟨0, 0, junk⟩ = .ok h0 ∧
      h0.detRatio X B C D = .ok (d, hh1) ∧
      (d = if R.det o = 0 then 0 else detN (R.cds.length + add.length) (greenAt o.G U'.ops U.ops) /
        detN (R.cds.length + rem.length) (greenAt o.G S'.ops S.ops)) ∧
      (R.det o ≠ 0 → detN (R.cds.length + add.length) (greenAt o.G U'.ops U.ops) ≠ 0 →
        IsInvOf (hh1.inverse junk B C D) (R.cds.length + add.length) (greenAt o.G U'.ops U.ops)) := by
    by_cases hR : R.det o = 0
    · have hz : detN R.cds.length (greenAt o.G S'.ops S.ops) = 0 := by
        by_contra hne; exact hpiv.mpr hne hR
      have hN : R.cds.length ≠ 0 := by
        intro hN
        rw [hN] at hz
        simp [detN] at hz
      have hmk : Inc.Replace.mk' X B C D ⟨0, 0, junk⟩ ⟨0, 0, junk⟩ =
          .ok ⟨R.cds.length, add.length, rem.length, ⟨0, 0, junk⟩, ⟨0, 0, junk⟩⟩ := by
        unfold Inc.Replace.mk'
        simp only [iv.1, iv.2.1, ub.Cc, ub.Cr, ub.Br, ub.Bc, ub.Dr, ub.Dc, Res.assert_true trivial,
          Res.assert_true (show R.cds.length ≤ R.cds.length + rem.length by omega), and_self, Res.bind_ok, Res.pure_eq,
          Nat.add_sub_cancel_left]
      refine ⟨_, ⟨R.cds.length, add.length, rem.length, ⟨0, 0, junk⟩, ⟨0, 0, junk⟩⟩, 0, hmk, ?_, by rw [if_pos hR],
        fun h => absurd hR h⟩
      unfold Inc.Replace.detRatio
      rw [if_neg hN]
      simp only
      rw [if_pos (by rw [detN_down iv, hz, zero_div])]
      rfl
    · obtain ⟨h0, hh1, e5, e6, e7⟩ := C15_inc_replace_partial junk ⟨0, 0, junk⟩ ⟨0, 0, junk⟩ iv gU ub (hpiv.mp hR)
      exact ⟨h0, hh1, _, e5, e6, by rw [if_neg hR], fun _ => e7⟩
  have pA' : U.ops.Perm A'.cds := by rw [u1]; exact (f1.append_right _).trans b1.symm
  have pB' : U'.ops.Perm A'.cs := by rw [u2]; exact (f2.append_right _).trans b2.symm
  have det' := det_ordered o pB' pA' lA2' hd
  rw [L1] at det'
  have det0 := det_ordered o r2 r1 h.len h.dist
  rw [r1.length_eq, lA] at det0
  have hrr : ra * rb = orderSign o.tcd S.ops * orderSign o.tc S'.ops * (orderSign o.tcd U.ops * orderSign o.tc U'.ops) := by
    rw [hra, hrb]
    have := sgn2_sq o.tcd o.tc FA FB
    calc _ = orderSign o.tcd S.ops * orderSign o.tc S'.ops * ((orderSign o.tcd FA * orderSign o.tc FB) *
        (orderSign o.tcd FA * orderSign o.tc FB)) * (orderSign o.tcd U.ops * orderSign o.tc U'.ops) := by ring
      _ = _ := by rw [this, mul_one]
  have ratio : ((ra * rb : ℤ) : K) * d = if R.det o = 0 then 0 else A'.det o / A.det o := by
    rw [hd0]
    split_ifs with hR
    · rw [mul_zero]
    · rw [hrr, ratio_sign (sgn2_sq _ _ _ _), det', det0]
      push_cast; rfl
  have hposs := removalInsertion_ok (s := { s with state := .tryRemAdd }) h.core.pcd h.core.pc h.pcds h.pcs h.dist hd a1 a2 b1 b2
  refine ⟨{ s with
    state := .tryRemAdd, impossible := false, cd := U, c := U', inv := X, perm := p, removed := ps.reverse,
    permRat := ra * rb, Gnj := C, Gjn := B, Gnn := D, nopAdded := add.length, helper := hh1 }, _, ?_, ratio, rfl,
    rfl, ?_, ?_⟩
  · unfold DM.tryRemoveAdd
    rw [checkState_bind h.st, setState_bind, Act.get_bind, Act.modify_bind, hposs, Act.lift_ok_bind, if_neg (by simp),
      if_pos hrem]
    rw [h.core.inv.1, Act.bind_ok e1]
    dsimp only
    rw [Act.bind_ok e2, Act.modify_bind, Act.bind_ok e3, Act.modify_bind,
      Act.assert_pos (by omega), show A.cds.length - rem.length = R.cds.length by omega]
    rw [Act.bind_ok e4, Act.modify_bind, Act.get_bind, e5, Act.lift_ok_bind, Act.modify_bind, e6, Act.lift_ok_bind]
    dsimp only
    rw [Act.modify_bind, Act.run_pure]
  · intro hR hne
    have hD : detN (R.cds.length + add.length) (greenAt o.G U'.ops U.ops) ≠ 0 := by
      intro hz; rw [det', hz, mul_zero] at hne; exact hne rfl
    suffices g : Good o { s with
        state := .waiting, impossible := false, cd := U, c := U', inv := hh1.inverse junk B C D, perm := p * (ra * rb),
        removed := ps.reverse, permRat := ra * rb, Gnj := C, Gjn := B, Gnn := D, nopAdded := add.length, helper := hh1 } A' by
      refine ⟨(e7 hR hD).1.trans lA'.symm, { s with
        state := .waiting, impossible := false, cd := U, c := U', inv := hh1.inverse junk B C D, perm := p * (ra * rb),
        removed := ps.reverse, permRat := ra * rb, Gnj := C, Gjn := B, Gnn := D, nopAdded := add.length, helper := hh1 }, ?_, rfl, g, ps, FA, FB, rfl, rfl, u1, u2, o1 ▸ r1, o2 ▸ r2⟩
      unfold DM.performRemoveAdd
      rw [Act.modify_bind]
      refine (checkState_bind (st := .tryRemAdd) rfl _).trans ?_
      rw [setState_bind, Act.get_bind, if_neg (by simp), Act.modify_bind]
      exact sanityCheck_ok g.sane
    · refine ⟨rfl, ⟨?_, ?_, v1.pos, v2.pos, ?_, ?_⟩, v1.set, v2.set, pA', pB', hd⟩
      · rw [lA']; exact L1
      · rw [lA']; exact L2
      · show p * (ra * rb) = _
        rw [hrr, show p = _ from c1.perm, ← mul_assoc, sgn2_sq, one_mul]
      · rw [lA']; exact e7 hR hD
  · -- back again
    have e8 := removeLast_ok o (s := { s with
      state := .waiting, impossible := false, cd := U, c := U', inv := X, perm := p, removed := ps.reverse,
      permRat := ra * rb, Gnj := C, Gjn := B, Gnn := D, nopAdded := add.length, helper := hh1 }) add u1 u2 v1.pos v2.pos
    have q1 : SideOK o.tcd (cutSide o.tcd U FA (add.map Prod.fst)) :=
      ⟨by have := v1.pos; rw [u1] at this; exact this.truncate, by have := v1.set; rw [u1] at this; exact this.truncate⟩
    have q2 : SideOK o.tc (cutSide o.tc U' FB (add.map Prod.snd)) :=
      ⟨by have := v2.pos; rw [u2] at this; exact this.truncate, by have := v2.set; rw [u2] at this; exact this.truncate⟩
    have n1 : ((FA ++ ps.map Prod.fst).map o.tcd).Nodup := by rw [← o1]; exact c1.pcd.nodup
    have n2 : ((FB ++ ps.map Prod.snd).map o.tc).Nodup := by rw [← o2]; exact c1.pc.nodup
    obtain ⟨V, V', e9, x1, x2, y1, y2⟩ := addNew_ok o (s := { s with
      state := .waiting, impossible := false, c := cutSide o.tc U' FB (add.map Prod.snd),
      cd := cutSide o.tcd U FA (add.map Prod.fst), inv := X, perm := p, removed := ps.reverse,
      permRat := ra * rb, Gnj := C, Gjn := B, Gnn := D, nopAdded := add.length, helper := hh1 }) ps q1 q2
      (lFA.trans lFB.symm) n1 n2
    have w1 : V.ops = S.ops := x1.trans o1.symm
    have w2 : V'.ops = S'.ops := x2.trans o2.symm
    refine Good.checked (dbg := dbg) (S := { s with
      state := .waiting, impossible := false, c := V', cd := V, inv := X, perm := p, removed := ps.reverse,
      permRat := ra * rb, Gnj := C, Gjn := B, Gnn := D, nopAdded := add.length, helper := hh1 }) ?_ rfl ?_
    · unfold DM.rejectRemoveAdd
      refine (checkState_bind (st := .tryRemAdd) rfl _).trans ?_
      rw [setState_bind, Act.get_bind, Act.bind_ok e8, Act.get_bind]
      simp only [List.reverse_reverse]
      rw [Act.bind_ok e9]
    · refine ⟨rfl, ⟨?_, ?_, y1.pos, y2.pos, ?_, ?_⟩, y1.set, y2.set, ?_, ?_, h.dist⟩
      · rw [w1]; exact c1.lcd
      · rw [w2]; exact c1.lc
      · rw [w1, w2]; exact c1.perm
      · rw [w1, w2]; exact c1.inv
      · rw [w1]; exact r1
      · rw [w2]; exact r2

/-- Removing pairs and adding pairs when what stays has an invertible matrix. -/
theorem trial_remAdd (dbg : Bool) (junk : ℕ → ℕ → K) {s : DM K Cd Co T} {A R A' : Conf Cd Co} (h : Good o s A)
    {rem add : List (Cd × Co)} (hrem : rem ≠ []) (a1 : A.cds.Perm (R.cds ++ rem.map Prod.fst))
    (a2 : A.cs.Perm (R.cs ++ rem.map Prod.snd)) (b1 : A'.cds.Perm (R.cds ++ add.map Prod.fst))
    (b2 : A'.cs.Perm (R.cs ++ add.map Prod.snd)) (hd : A'.Distinct o) (hR : R.det o ≠ 0) :
    Trial o .tryRemAdd (DM.tryRemoveAdd o junk rem add) (DM.performRemoveAdd o dbg junk) (DM.rejectRemoveAdd o dbg) s A A' := by
  obtain ⟨s1, r, e1, e2, e3, e4, e5, e6⟩ := trial_remAdd' dbg junk h hrem a1 a2 b1 b2 hd
  rw [if_neg hR] at e2
  subst e2
  refine ⟨s1, e1, e3, e4, fun hne => ?_, e6⟩
  obtain ⟨-, s2, a, b, c, -⟩ := e5 hR hne
  exact ⟨s2, a, b, c⟩

end CTInt
