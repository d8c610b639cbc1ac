import Verif.Proofs.DetPlay

/-!
# Trials that are not handled properly, and the call protocol (helper lemmas for C24-C26)
-/

set_option linter.all false

namespace CTInt

variable {K Cd Co T : Type} [Field K] [DecidableEq K] [LinearOrder T] {o : OpSys K Cd Co T}

theorem addNew_nil (s : DM K Cd Co T) : DM.addNew o [] s = (.ok 1, s) := rfl

/-- Several annihilation operators are to be replaced and no creation operator: nothing happens. -/
theorem replaceMany_ok (dbg : Bool) (junk : ℕ → ℕ → K) {s : DM K Cd Co T} {A : Conf Cd Co} (h : Good o s A)
    {ch : Change Cd Co} (h1 : ch.remCd = []) (h2 : ch.addCd = []) (h3 : ch.remC.length = ch.addC.length)
    (h4 : 2 ≤ ch.remC.length) :
    ∃ s1 s2, DM.tryUpdate o dbg junk ch s = (.ok 1, s1) ∧ DM.performUpdate o dbg junk s1 = (.ok (), s2) ∧ Good o s2 A := by
  have z1 := congrArg List.length h1
  have z2 := congrArg List.length h2
  simp only [List.length_nil] at z1 z2
  have hn := h.core.inv.1
  have er : DM.removeLast o ((0 : ℕ) : ℤ) { s with mode := some .remAdd, state := .tryRemAdd, impossible := false } =
      (.ok 1, { s with mode := some .remAdd, state := .tryRemAdd, impossible := false }) := by
    have := removeLast_ok o (s := { s with mode := some .remAdd, state := .tryRemAdd, impossible := false })
      (FA := s.cd.ops) (FB := s.c.ops) [] (by simp) (by simp) h.core.pcd h.core.pc
    simp only [List.map_nil, cutSide_nil, List.length_nil] at this
    rw [this, sgn2_sq]
  obtain ⟨B, C, D, e4, ub⟩ := newBlocks_ok (o := o)
    (s := { s with mode := some .remAdd, state := .tryRemAdd, impossible := false, permRat := 1 * 1 })
    (N := A.cds.length) (M := 0) h.core.lcd h.core.lc
  obtain ⟨h0, hh1, e5, e6, e7⟩ := C15_inc_replace_partial (N := A.cds.length) (Mo := 0) (M := 0) junk ⟨0, 0, junk⟩ ⟨0, 0, junk⟩
    h.core.inv (fun _ _ _ _ => rfl) ub h.core.inv.det_ne_zero
  have e7 := e7 h.core.inv.det_ne_zero
  have g : Good o { s with
      mode := some .remAdd, state := .waiting, impossible := false, permRat := 1 * 1, Gnj := C, Gjn := B, Gnn := D,
      nopAdded := 0, helper := hh1, inv := hh1.inverse junk B C D, perm := s.perm * (1 * 1) } A := by
    refine ⟨rfl, ⟨h.core.lcd, h.core.lc, h.core.pcd, h.core.pc, ?_, e7⟩, h.scd, h.sc, h.pcds, h.pcs, h.dist⟩
    show s.perm * (1 * 1) = _
    rw [mul_one, mul_one]; exact h.core.perm
  refine ⟨{ s with
    mode := some .remAdd, state := .tryRemAdd, impossible := false, permRat := 1 * 1, Gnj := C, Gjn := B, Gnn := D,
    nopAdded := 0, helper := hh1 }, { s with
    mode := some .remAdd, state := .waiting, impossible := false, permRat := 1 * 1, Gnj := C, Gjn := B, Gnn := D,
    nopAdded := 0, helper := hh1, inv := hh1.inverse junk B C D, perm := s.perm * (1 * 1) }, ?_, ?_, g⟩
  · unfold DM.tryUpdate
    rw [Act.bind_ok (sanityCheck_ok h.sane)]
    rw [if_neg (by omega), if_neg (by omega), if_neg (by omega), if_neg (by omega), if_neg (by omega), if_neg (by omega),
      setMode_bind]
    rw [z1, z2]
    have e1 : ∀ (a : List Cd) (b : List Co), DM.pairs a b 0 = .ok [] := by
      intro a b
      unfold DM.pairs
      rw [Res.assert_true ⟨Nat.zero_le _, Nat.zero_le _⟩]; rfl
    rw [e1, Act.lift_ok_bind, e1, Act.lift_ok_bind]
    unfold DM.tryRemoveAdd
    rw [checkState_bind (s := { s with mode := some .remAdd }) h.st, setState_bind, Act.get_bind, Act.modify_bind]
    have ep : ∀ t : DM K Cd Co T, DM.removalInsertionPossible o t [] [] = .ok true := by
      intro t
      unfold DM.removalInsertionPossible DM.pairTimes
      rw [Res.throwIf_false (by simp), Res.bind_ok, if_neg (by simp)]
      simp [Res.pure_eq]
    rw [ep, Act.lift_ok_bind, if_neg (by simp), if_neg (by simp)]
    show (DM.removeLast o ((0 : ℕ) : ℤ) >>= _) _ = _
    rw [Act.bind_ok er, Act.modify_bind, Act.bind_ok (addNew_nil _), Act.modify_bind, Act.assert_pos (by simp)]
    dsimp only
    rw [hn, show A.cds.length - ([] : List (Cd × Co)).length = A.cds.length from rfl]
    have e4' : DM.newBlocks o A.cds.length ([] : List (Cd × Co)).length _ = _ := e4
    rw [Act.bind_ok e4', Act.modify_bind, Act.get_bind]
    dsimp only
    rw [e5, Act.lift_ok_bind, Act.modify_bind, e6, Act.lift_ok_bind]
    dsimp only
    rw [Act.modify_bind, Act.run_pure]
    congr 2
    have hne := h.core.inv.det_ne_zero
    have : detN (A.cds.length + 0) (greenAt o.G s.c.ops s.cd.ops) / detN (A.cds.length + 0) (greenAt o.G s.c.ops s.cd.ops) = 1 :=
      div_self hne
    rw [show (1 * 1 : ℤ) = 1 from rfl, Int.cast_one, one_mul]
    exact this
  · rw [perform_mode (m := .remAdd) dbg junk rfl]
    show DM.performRemoveAdd o dbg junk _ = _
    unfold DM.performRemoveAdd
    rw [Act.modify_bind]
    refine (checkState_bind (st := .tryRemAdd) rfl _).trans ?_
    rw [setState_bind, Act.get_bind, if_neg (by simp), Act.modify_bind]
    exact sanityCheck_ok g.sane

/-- More creation than annihilation operators are to be exchanged: the shorter list is read past its end. -/
theorem tryUpdate_pastEnd (dbg : Bool) (junk : ℕ → ℕ → K) {s : DM K Cd Co T} (hs : Sane o s) {ch : Change Cd Co}
    (h1 : ch.addCd.length + ch.remC.length = ch.addC.length + ch.remCd.length) (h2 : ch.addC.length < ch.addCd.length)
    (h3 : ch.addC ≠ [] ∨ ch.remC ≠ [] ∨ 2 ≤ ch.remCd.length) : (DM.tryUpdate o dbg junk ch s).1 = .ub := by
  have h3' : 0 < ch.addC.length ∨ 0 < ch.remC.length ∨ 2 ≤ ch.remCd.length := by
    rcases h3 with h | h | h
    · exact Or.inl (List.length_pos_iff.mpr h)
    · exact Or.inr (Or.inl (List.length_pos_iff.mpr h))
    · exact Or.inr (Or.inr h)
  unfold DM.tryUpdate
  rw [Act.bind_ok (sanityCheck_ok hs), if_neg (by omega), if_neg (by omega), if_neg (by omega), if_neg (by omega),
    if_neg (by omega), if_neg (by omega), setMode_bind]
  have : DM.pairs ch.addCd ch.addC ch.addCd.length = .ub := by
    unfold DM.pairs
    rw [Res.assert_false (by omega)]; rfl
  rw [this, Act.lift_ub_bind]

/-- `get` of a good state shows the set of the operators. -/
theorem sideSet {X : Type} {τ : X → T} {S : Side X T} {L : List X} (h : SideOK τ S) (hp : S.ops.Perm L) :
    S.set = byTime τ L := by
  rw [h.set.eq_byTime]; exact byTime_congr hp h.set.nodup

/-- A removal that names an operator twice. -/
theorem removeTwice_ok (dbg : Bool) (junk : ℕ → ℕ → K) {s : DM K Cd Co T} {A A' : Conf Cd Co} (h : Good o s A')
    (hd : A.Distinct o)
    {ps : List (Cd × Co)} (hr : s.removed = ps.reverse) (p1 : (A'.cds ++ ps.map Prod.fst).Perm A.cds)
    (p2 : (A'.cs ++ ps.map Prod.snd).Perm A.cs) {ch : Change Cd Co} (h1 : ch.addCd = []) (h2 : ch.addC = [])
    (hl : ch.remCd.length = ch.remC.length) (m1 : ∀ a ∈ ch.remCd, a ∈ A'.cds) (m2 : ∀ b ∈ ch.remC, b ∈ A'.cs)
    (hdup : ¬ (ch.remCd.map o.tcd ++ ch.remC.map o.tc).Nodup) :
    ∃ s1 s2, DM.tryUpdate o dbg junk ch s = (.ok 0, s1) ∧ DM.rejectUpdate o dbg s1 = (.ok (), s2) ∧
      s2.cd.set = byTime o.tcd A.cds ∧ s2.c.set = byTime o.tc A.cs := by
  have hne : ch.remCd ≠ [] := by
    intro hz
    have hz' : ch.remC = [] := by rw [← List.length_eq_zero_iff, ← hl, hz]; rfl
    rw [hz, hz'] at hdup
    exact hdup List.nodup_nil
  have n1 : ((s.cd.ops ++ ps.map Prod.fst).map o.tcd).Nodup := by
    rw [(((h.pcds.append_right _).trans p1).map _).nodup_iff]; exact (List.nodup_append.mp hd).1
  have n2 : ((s.c.ops ++ ps.map Prod.snd).map o.tc).Nodup := by
    rw [(((h.pcs.append_right _).trans p2).map _).nodup_iff]; exact (List.nodup_append.mp hd).2.1
  obtain ⟨U, U', e4, u1, u2, v1, v2⟩ := addNew_ok o (s := { s with mode := some .rem, state := .waiting }) ps
    h.side_cd h.side_c (by rw [h.core.lcd, h.core.lc]) n1 n2
  refine ⟨{ s with mode := some .rem, state := .tryRem }, { s with mode := some .rem, state := .waiting, cd := U, c := U' },
    ?_, ?_, ?_, ?_⟩
  · rw [tryUpdate_rem dbg junk h.sane h1 h2 hl hne]
    unfold DM.tryRemove
    rw [checkState_bind (s := { s with mode := some .rem }) h.st, setState_bind, Act.get_bind]
    have : DM.removalPossible o { s with mode := some .rem, state := .tryRem } (ch.remCd.zip ch.remC) = .ok false := by
      unfold DM.removalPossible
      rw [Res.throwIf_false]
      · have : ¬ (DM.pairTimes o (ch.remCd.zip ch.remC)).Nodup := by
          rw [(pairTimes_perm _).nodup_iff, zip_fst hl, zip_snd hl]; exact hdup
        simp [this, Res.pure_eq]
      · rw [not_not]
        intro p hp
        rw [exist_iff (s := { s with mode := some .rem, state := .tryRem }) h.core.pcd h.core.pc h.pcds h.pcs,
          exist_iff (s := { s with mode := some .rem, state := .tryRem }) h.core.pcd h.core.pc h.pcds h.pcs]
        have a := (List.of_mem_zip hp)
        exact ⟨List.mem_append_left _ (List.mem_map_of_mem (m1 _ a.1)), List.mem_append_right _ (List.mem_map_of_mem (m2 _ a.2))⟩
    rw [this, Act.lift_ok_bind, if_pos (by simp), Act.run_pure]
  · rw [reject_mode (m := .rem) dbg rfl]
    show DM.rejectRemove o _ = _
    unfold DM.rejectRemove
    refine (checkState_bind (st := .tryRem) rfl _).trans ?_
    rw [setState_bind, Act.get_bind]
    dsimp only
    rw [hr, List.reverse_reverse]
    rw [hr] at e4
    rw [Act.bind_ok e4, Act.run_pure]
  · exact sideSet v1 (by rw [u1]; exact (h.pcds.append_right _).trans p1)
  · exact sideSet v2 (by rw [u2]; exact (h.pcs.append_right _).trans p2)

theorem removalInsertion_clash {s : DM K Cd Co T} {A R : Conf Cd Co} {rem add : List (Cd × Co)}
    (h1 : PosOK o.tcd s.cd.ops s.cd.pos) (h2 : PosOK o.tc s.c.ops s.c.pos) (p1 : s.cd.ops.Perm A.cds)
    (p2 : s.c.ops.Perm A.cs) (hd : A.Distinct o) (a1 : A.cds.Perm (R.cds ++ rem.map Prod.fst))
    (a2 : A.cs.Perm (R.cs ++ rem.map Prod.snd))
    (hc : ¬ (Conf.mk (R.cds ++ add.map Prod.fst) (R.cs ++ add.map Prod.snd)).Distinct o) :
    DM.removalInsertionPossible o s rem add = .ok false := by
  have tm := removal_mem (o := o) a1 a2
  have hd0 := hd
  unfold Conf.Distinct at hd hc
  rw [tm.nodup_iff] at hd
  have d1 := List.nodup_append.mp hd
  rw [(times_ext R add).nodup_iff] at hc
  unfold DM.removalInsertionPossible
  rw [Res.throwIf_false, Res.bind_ok]
  · split_ifs with hi
    · rw [pairTimes_mem (P := fun t => ¬ s.Exist t ∨ t ∈ DM.pairTimes o rem)] at hi
      have : ¬ (DM.pairTimes o add).Nodup := by
        intro hn
        refine hc (List.nodup_append.mpr ⟨d1.1, hn, ?_⟩)
        intro t ht u hu e
        subst e
        rcases hi t hu with hx | hx
        · exact hx ((exist_iff h1 h2 p1 p2 t).mpr (tm.mem_iff.mpr (List.mem_append_left _ ht)))
        · exact d1.2.2 t ht t hx rfl
      simp [this, Res.pure_eq]
    · rfl
  · rw [not_not, pairTimes_mem (P := fun t => s.Exist t)]
    intro t ht
    rw [exist_iff h1 h2 p1 p2, tm.mem_iff]
    exact List.mem_append_right _ ht

/-- A change that removes and adds at the same time and cannot be done and is rejected: what the last check looks at. -/
theorem remAddClash_ok (dbg : Bool) (junk : ℕ → ℕ → K) {s : DM K Cd Co T} {A A' R : Conf Cd Co} (h : Good o s A')
    (hd : A.Distinct o) {ps add : List (Cd × Co)} {FA : List Cd} {FB : List Co} (hr : s.removed = ps.reverse)
    (hn : s.nopAdded = add.length) (o1 : s.cd.ops = FA ++ add.map Prod.fst) (o2 : s.c.ops = FB ++ add.map Prod.snd)
    (p1 : (FA ++ ps.map Prod.fst).Perm A.cds) (p2 : (FB ++ ps.map Prod.snd).Perm A.cs) {ch : Change Cd Co}
    (hl : ch.remCd.length = ch.remC.length) (hl' : ch.addCd.length = ch.addC.length) (hne : ch.remCd ≠ [])
    (hne' : ch.addCd ≠ []) (t1 : A'.cds.Perm (R.cds ++ ch.remCd)) (t2 : A'.cs.Perm (R.cs ++ ch.remC))
    (hc : ¬ (Conf.mk (R.cds ++ ch.addCd) (R.cs ++ ch.addC)).Distinct o) :
    ∃ s1 s2, DM.tryUpdate o dbg junk ch s = (.ok 0, s1) ∧ DM.rejectUpdate o dbg s1 = DM.sanityCheck o dbg s2 ∧
      s2.state = .waiting ∧ s2.inv = s.inv ∧ s2.cd.ops.Perm A.cds ∧ s2.cd.set = byTime o.tcd A.cds ∧ s2.c.set = byTime o.tc A.cs := by
  have lF : FA.length = FB.length := by
    have e1 := h.core.lcd
    have e2 := h.core.lc
    rw [o1] at e1
    rw [o2] at e2
    simp at e1 e2
    omega
  have er := removeLast_ok o (s := { s with mode := some .remAdd, state := .waiting, impossible := true }) add o1 o2
    h.core.pcd h.core.pc
  have q1 : SideOK o.tcd (cutSide o.tcd s.cd FA (add.map Prod.fst)) :=
    ⟨by have := h.core.pcd; rw [o1] at this; exact this.truncate, by have := h.scd; rw [o1] at this; exact this.truncate⟩
  have q2 : SideOK o.tc (cutSide o.tc s.c FB (add.map Prod.snd)) :=
    ⟨by have := h.core.pc; rw [o2] at this; exact this.truncate, by have := h.sc; rw [o2] at this; exact this.truncate⟩
  have n1 : ((FA ++ ps.map Prod.fst).map o.tcd).Nodup := by
    rw [(p1.map _).nodup_iff]; exact (List.nodup_append.mp hd).1
  have n2 : ((FB ++ ps.map Prod.snd).map o.tc).Nodup := by
    rw [(p2.map _).nodup_iff]; exact (List.nodup_append.mp hd).2.1
  obtain ⟨U, U', e4, u1, u2, v1, v2⟩ := addNew_ok o (s := { s with
      mode := some .remAdd, state := .waiting, impossible := true, c := cutSide o.tc s.c FB (add.map Prod.snd),
      cd := cutSide o.tcd s.cd FA (add.map Prod.fst) }) ps q1 q2 lF n1 n2
  refine ⟨{ s with mode := some .remAdd, state := .tryRemAdd, impossible := true },
    { s with mode := some .remAdd, state := .waiting, impossible := true, cd := U, c := U' }, ?_, ?_, rfl, rfl, by rw [show DM.cd _ = U from rfl, u1]; exact p1, ?_, ?_⟩
  · rw [tryUpdate_remAdd dbg junk h.sane hl hl' hne hne']
    unfold DM.tryRemoveAdd
    rw [checkState_bind (s := { s with mode := some .remAdd }) h.st, setState_bind, Act.get_bind, Act.modify_bind]
    rw [removalInsertion_clash (s := { s with mode := some .remAdd, state := .tryRemAdd }) (R := R) h.core.pcd h.core.pc h.pcds
      h.pcs h.dist (by rw [zip_fst hl]; exact t1) (by rw [zip_snd hl]; exact t2) (by rw [zip_fst hl', zip_snd hl']; exact hc),
      Act.lift_ok_bind, if_pos (by simp), Act.modify_bind, Act.run_pure]
  · rw [reject_mode (m := .remAdd) dbg rfl]
    show DM.rejectRemoveAdd o dbg _ = _
    unfold DM.rejectRemoveAdd
    refine (checkState_bind (st := .tryRemAdd) rfl _).trans ?_
    rw [setState_bind, Act.get_bind]
    dsimp only
    rw [hn] at er ⊢
    rw [hr] at er e4 ⊢
    rw [Act.bind_ok er, Act.get_bind]
    dsimp only
    rw [hn] at e4
    rw [List.reverse_reverse, Act.bind_ok e4]
  · exact sideSet v1 (by rw [u1]; exact p1)
  · exact sideSet v2 (by rw [u2]; exact p2)

end CTInt
