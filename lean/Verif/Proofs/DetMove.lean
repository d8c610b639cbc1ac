import Verif.Proofs.DetAct

/-!
# Moving operators to the end, and cutting off what was added (helper lemmas for C24, C25)
-/

set_option linter.all false

namespace CTInt

theorem mapM_forall2 {α β : Type} {R : α → β → Prop} {f : α → Res β} {l : List α}
    (h : ∀ a ∈ l, ∃ b, f a = .ok b ∧ R a b) : ∃ bs, Res.mapM f l = .ok bs ∧ List.Forall₂ R l bs := by
  induction l with
  | nil => exact ⟨[], rfl, .nil⟩
  | cons a l ih =>
    obtain ⟨b, e, hb⟩ := h a (by simp)
    obtain ⟨bs, e', hbs⟩ := ih fun x hx => h x (by simp [hx])
    exact ⟨b :: bs, by rw [Res.mapM_cons, e, e']; rfl, .cons hb hbs⟩

theorem forall2_map_eq {α β γ : Type} {f : α → γ} {g : β → γ} {l : List α} {l' : List β}
    (h : List.Forall₂ (fun a b => g b = f a) l l') : l'.map g = l.map f := by
  induction h with
  | nil => rfl
  | cons hab _ ih => rw [List.map_cons, List.map_cons, hab, ih]

variable {K Cd Co T : Type} [Field K] [DecidableEq K] [LinearOrder T] (o : OpSys K Cd Co T)

/-- A side with the first `k` operators of `R` forgotten by map and set. -/
def partSide {X : Type} (τ : X → T) (S : Side X T) (R : List X) : Side X T :=
  ⟨S.ops, S.pos.filter (fun e => decide (e.1 ∉ R.map τ)), S.set.filter (fun y => decide (τ y ∉ R.map τ))⟩

theorem forget_ok {X : Type} {τ : X → T} {S : Side X T} {F R : List X} (e : S.ops = F ++ R) {k : ℕ} (hk : k < R.length) :
    (partSide τ S (R.take k)).forget τ (k + F.length) = .ok (partSide τ S (R.take (k + 1))) := by
  unfold Side.forget
  have hg : (partSide τ S (R.take k)).ops[k + F.length]? = some R[k] := by
    show S.ops[k + F.length]? = _
    rw [e, List.getElem?_append_right (by omega), Nat.add_sub_cancel, List.getElem?_eq_getElem hk]
  rw [Res.get_eq_ok.mpr hg, Res.bind_ok]
  show Res.ok _ = _
  unfold partSide Side.mapErase Side.setErase
  simp only [List.filter_filter]
  rw [List.take_succ_eq_append_getElem hk]
  simp only [List.map_append, List.map_cons, List.map_nil, List.mem_append, List.mem_singleton, not_or, Bool.decide_and]
  congr 3
  · funext e; rw [Bool.and_comm]
  · funext e; rw [Bool.and_comm]

theorem partSide_nil {X : Type} {τ : X → T} {S : Side X T} : partSide τ S [] = S := by
  unfold partSide; simp

theorem partSide_resize {X : Type} {τ : X → T} {S : Side X T} {F R : List X} (e : S.ops = F ++ R) :
    (partSide τ S R).resize F.length = .ok (cutSide τ S F R) := by
  unfold Side.resize
  rw [Res.assert_true (by show F.length ≤ S.ops.length; rw [e]; simp), Res.bind_ok]
  show Res.ok _ = _
  unfold partSide cutSide
  simp [e]

/-- `remove_excess_operators` undoes an `add_new_operators`. -/
theorem removeExcess_ok (dbg : Bool) {s : DM K Cd Co T} {FA : List Cd} {FB : List Co} {RA : List Cd} {RB : List Co}
    (hA : s.cd.ops = FA ++ RA) (hB : s.c.ops = FB ++ RB) (hl : FA.length = FB.length)
    (hl' : RA.length = RB.length) (hi : s.inv.rows = FA.length) (h1 : PosOK o.tcd s.cd.ops s.cd.pos) :
    DM.removeExcess o dbg s =
      DM.sanityCheck o dbg { s with c := cutSide o.tc s.c FB RB, cd := cutSide o.tcd s.cd FA RA } := by
  have hn : s.cd.pos.length - s.inv.rows = RA.length := by rw [h1.length_eq, hA, hi]; simp
  obtain ⟨u, s1, e1, e2⟩ := Act.fold_range_inv (σ := DM K Cd Co T) (β := Unit)
    (fun k _ t => t = { s with c := partSide o.tc s.c (RB.take k), cd := partSide o.tcd s.cd (RA.take k) })
    (fun (_ : Unit) (i : ℕ) => (do
      let s' ← Act.get
      let S ← Act.lift (s'.c.forget o.tc (i + s.inv.rows))
      let S' ← Act.lift (s'.cd.forget o.tcd (i + s.inv.rows))
      Act.modify fun s => { s with c := S, cd := S' } : Act (DM K Cd Co T) Unit)) RA.length () s
    (by simp only [List.take_zero, partSide_nil]) (by
      intro k hk _ t ht
      refine ⟨(), _, ?_, rfl⟩
      subst ht
      simp only [Act.get_bind]
      have e1 := forget_ok (τ := o.tc) hB (k := k) (by omega)
      have e2 := forget_ok (τ := o.tcd) hA (k := k) hk
      rw [← hl, ← hi] at e1
      rw [← hi] at e2
      rw [e1, Act.lift_ok_bind, e2, Act.lift_ok_bind, Act.run_modify])
  unfold DM.removeExcess
  rw [Act.get_bind, hn, Act.bind_ok e1, Act.get_bind]
  subst e2
  have t1 : RA.take RA.length = RA := List.take_length
  have t2 : RB.take RA.length = RB := by rw [hl']; exact List.take_length
  simp only [t1, t2]
  have r1 := partSide_resize (τ := o.tcd) hA
  have r2 := partSide_resize (τ := o.tc) hB
  rw [← hi] at r1
  rw [← hl, ← hi] at r2
  rw [r1, Act.lift_ok_bind, r2, Act.lift_ok_bind, Act.modify_bind]

theorem find_ok {X : Type} {τ : X → T} {S : Side X T} (h : PosOK τ S.ops S.pos) {x : X} {p : ℕ} (hp : S.ops[p]? = some x) :
    S.find τ x = .ok p := by
  unfold Side.find; rw [h.find_eq hp]

/-- The sorted positions of the operators to be removed. -/
theorem positions {X Y : Type} {τ : X → T} {S : Side X T} (h : PosOK τ S.ops S.pos) (f : Y → X) {rem : List Y}
    (hr : ∀ p ∈ rem, f p ∈ S.ops) (hn : ((rem.map f).map τ).Nodup) :
    ∃ ps, Res.mapM (fun p => S.find τ (f p)) rem = .ok ps ∧
      (ps.insertionSort (· ≤ ·)).Pairwise (· < ·) ∧ (∀ p ∈ ps.insertionSort (· ≤ ·), p < S.ops.length) ∧
      (ps.insertionSort (· ≤ ·)).length = rem.length ∧
      ((ps.insertionSort (· ≤ ·)).map (S.ops[·]?)).Perm ((rem.map f).map some) := by
  obtain ⟨ps, e, hf⟩ := mapM_forall2 (R := fun p q => S.ops[q]? = some (f p)) (f := fun p => S.find τ (f p)) (l := rem) (by
    intro p hp
    obtain ⟨q, hq, e⟩ := List.getElem_of_mem (hr p hp)
    have : S.ops[q]? = some (f p) := by rw [List.getElem?_eq_getElem hq, e]
    exact ⟨q, find_ok h this, this⟩)
  have hm : ps.map (S.ops[·]?) = rem.map fun p => some (f p) := forall2_map_eq hf
  have hp : (ps.insertionSort (· ≤ ·)).Perm ps := List.perm_insertionSort _ _
  have hnd : ps.Nodup := by
    refine List.Nodup.of_map (S.ops[·]?) ?_
    rw [hm, show (rem.map fun p => some (f p)) = (rem.map f).map some by rw [List.map_map]; rfl]
    exact (List.Nodup.of_map τ hn).map (fun _ _ h => Option.some.inj h)
  refine ⟨ps, e, ?_, ?_, ?_, ?_⟩
  · have h1 : (ps.insertionSort (· ≤ ·)).Pairwise (· ≤ ·) := List.pairwise_insertionSort _ _
    have h2 : (ps.insertionSort (· ≤ ·)).Nodup := hp.nodup_iff.mpr hnd
    exact (h1.and h2).imp fun h => lt_of_le_of_ne h.1 h.2
  · intro p hp'
    have hp'' : p ∈ ps := hp.subset hp'
    have : S.ops[p]? ∈ ps.map (S.ops[·]?) := List.mem_map_of_mem hp''
    rw [hm] at this
    obtain ⟨r, -, hr'⟩ := List.mem_map.mp this
    exact (List.getElem?_eq_some_iff.mp hr'.symm).1
  · rw [hp.length_eq]; exact hf.length_eq.symm
  · refine (hp.map _).trans ?_
    rw [hm, List.map_map]; exact .refl _

theorem take_concat {X : Type} {R : List X} {k m : ℕ} (hm : R.length = m) (hk : k < m) {x : X} (hx : R[m - 1 - k]? = some x) :
    R.take (m - k) = R.take (m - (k + 1)) ++ [x] := by
  obtain ⟨h1, h2⟩ := List.getElem?_eq_some_iff.mp hx
  rw [show m - k = (m - 1 - k) + 1 by omega, List.take_succ_eq_append_getElem h1, h2,
    show m - (k + 1) = m - 1 - k by omega]

/-- Moving the operators to be removed to the end. -/
theorem moveToEnd_ok {s : DM K Cd Co T} {n : ℕ} (h : Core o s n) (hs1 : SetOK o.tcd s.cd.set s.cd.ops)
    (hs2 : SetOK o.tc s.c.set s.c.ops) (rem : List (Cd × Co)) (hr : ∀ p ∈ rem, p.1 ∈ s.cd.ops ∧ p.2 ∈ s.c.ops)
    (hn1 : ((rem.map Prod.fst).map o.tcd).Nodup) (hn2 : ((rem.map Prod.snd).map o.tc).Nodup) :
    ∃ FA FB RA RB S S' X p,
      DM.moveToEnd o n rem s =
        (.ok (), { s with cd := S, c := S', inv := X, perm := p, removed := (RA.zip RB).reverse }) ∧
      Core o { s with cd := S, c := S', inv := X, perm := p, removed := (RA.zip RB).reverse } n ∧
      S.ops = FA ++ RA ∧ S'.ops = FB ++ RB ∧ RA.Perm (rem.map Prod.fst) ∧ RB.Perm (rem.map Prod.snd) ∧
      SetOK o.tcd S.set FA ∧ SetOK o.tc S'.set FB ∧ S.ops.Perm s.cd.ops ∧ S'.ops.Perm s.c.ops := by
  obtain ⟨ps, e1, a1, b1, l1, m1⟩ := positions h.pcd (fun p : Cd × Co => p.1) (fun p hp => (hr p hp).1) hn1
  obtain ⟨qs, e2, a2, b2, l2, m2⟩ := positions h.pc (fun p : Cd × Co => p.2) (fun p hp => (hr p hp).2) hn2
  generalize hcols : ps.insertionSort (· ≤ ·) = cols at *
  generalize hrows : qs.insertionSort (· ≤ ·) = rows at *
  rw [h.lcd] at b1
  rw [h.lc] at b2
  have hle : rem.length ≤ n := by
    by_cases h0 : 0 < cols.length
    · have := asc_bound a1 b1 (cols.length - 1) (by omega); omega
    · omega
  -- the exchanges
  obtain ⟨u, s1, E1, S, S', X, p, q1, q2, q3, q4, q5, q6⟩ := Act.fold_range_inv (σ := DM K Cd Co T) (β := Unit)
    (fun k _ t => ∃ S S' X p, t = { s with cd := S, c := S', inv := X, perm := p } ∧ Core o t n ∧
      S.set = s.cd.set ∧ S'.set = s.c.set ∧ MoveInv s.cd.ops cols n k S.ops ∧ MoveInv s.c.ops rows n k S'.ops)
    (fun (_ : Unit) (k : ℕ) => (do
      Act.assert (k + 1 ≤ n)
      DM.swapCd o (cols.getD (rem.length - 1 - k) 0) (n - 1 - k)
      DM.swapC o (rows.getD (rem.length - 1 - k) 0) (n - 1 - k) : Act (DM K Cd Co T) Unit)) rem.length () s
    ⟨s.cd, s.c, s.inv, s.perm, rfl, h, rfl, rfl, ⟨h.lcd, .refl _, fun _ _ => rfl, fun _ hk => absurd hk (by omega)⟩,
      ⟨h.lc, .refl _, fun _ _ => rfl, fun _ hk => absurd hk (by omega)⟩⟩
    (by
      rintro k hk _ t ⟨S, S', X, p, ht, hc, f1, f2, M1, M2⟩
      have bk1 := asc_bound a1 b1 k (by omega)
      have bk2 := asc_bound a2 b2 k (by omega)
      rw [l1] at bk1
      rw [l2] at bk2
      obtain ⟨U, Y, r, E, hc', g1, g2, g3⟩ := swapCd_ok o hc
        (i := cols.getD (rem.length - 1 - k) 0) (j := n - 1 - k) (by omega) (by omega)
      obtain ⟨U', Y', r', E', hc'', g1', g2', g3'⟩ := swapC_ok o hc'
        (i := rows.getD (rem.length - 1 - k) 0) (j := n - 1 - k) (by omega) (by omega)
      refine ⟨(), _, ?_, U, U', Y', r', rfl, ?_, ?_, ?_, ?_, ?_⟩
      · rw [Act.assert_pos (by omega), Act.bind_ok E, E']
        subst ht
        rfl
      · subst ht; exact hc''
      · rw [g1, ht]; exact f1
      · rw [g1', ht]; exact f2
      · refine M1.step a1 b1 (by omega) ?_ ?_
        · rw [ht] at g2; exact g2
        · intro q; rw [g3, ht, l1]
      · refine M2.step a2 b2 (by omega) ?_ ?_
        · rw [ht] at g2'; exact g2'
        · intro q; rw [g3', ht, l2])
  rw [← l1] at q5
  rw [← l2] at q6
  obtain ⟨FA, RA, EA, LA, MA⟩ := q5.split (by omega)
  obtain ⟨FB, RB, EB, LB, MB⟩ := q6.split (by omega)
  have PA : RA.Perm (rem.map Prod.fst) := perm_of_map_some (by rw [MA]; exact m1)
  have PB : RB.Perm (rem.map Prod.snd) := perm_of_map_some (by rw [MB]; exact m2)
  have LFA : FA.length = n - rem.length := by
    have := q5.len; rw [EA, List.length_append] at this; omega
  have LFB : FB.length = n - rem.length := by
    have := q6.len; rw [EB, List.length_append] at this; omega
  have zA : RA.length = rem.length := by omega
  have zB : RB.length = rem.length := by omega
  -- the bookkeeping
  have hz : (RA.zip RB).length = rem.length := by rw [List.length_zip]; omega
  obtain ⟨u2, s2, E2, S2, S2', w0, w1, w2, w3, w4⟩ := Act.fold_range_inv (σ := DM K Cd Co T) (β := Unit)
    (fun k _ t => ∃ U U', t = { s1 with cd := U, c := U', removed := (RA.zip RB).reverse.take k } ∧
      U = { S with set := U.set } ∧ U' = { S' with set := U'.set } ∧
      SetOK o.tcd U.set (FA ++ RA.take (rem.length - k)) ∧ SetOK o.tc U'.set (FB ++ RB.take (rem.length - k)))
    (fun (_ : Unit) (k : ℕ) => (do
      let s ← Act.get
      let a ← Act.lift (Res.get s.cd.ops (n - 1 - k))
      let b ← Act.lift (Res.get s.c.ops (n - 1 - k))
      Act.modify fun s => { s with
        removed := s.removed ++ [(a, b)]
        cd := { s.cd with set := Side.setErase o.tcd s.cd.set a }
        c := { s.c with set := Side.setErase o.tc s.c.set b } } : Act (DM K Cd Co T) Unit)) rem.length ()
    { s1 with removed := [] }
    ⟨S, S', by subst q1; rfl, rfl, rfl, by
      rw [Nat.sub_zero, ← zA, List.take_length, ← EA, q3]
      exact hs1.congr q5.perm.symm, by
      rw [Nat.sub_zero, ← zB, List.take_length, ← EB, q4]
      exact hs2.congr q6.perm.symm⟩
    (by
      rintro k hk _ t ⟨U, U', ht, f1, f2, c1, c2⟩
      have hia : (rem.length - 1 - k) < RA.length := by omega
      have hib : (rem.length - 1 - k) < RB.length := by omega
      have ga : U.ops[n - 1 - k]? = some RA[rem.length - 1 - k] := by
        rw [f1]; show S.ops[_]? = _
        rw [EA, List.getElem?_append_right (by omega), LFA, show n - 1 - k - (n - rem.length) = rem.length - 1 - k by omega,
          List.getElem?_eq_getElem hia]
      have gb : U'.ops[n - 1 - k]? = some RB[rem.length - 1 - k] := by
        rw [f2]; show S'.ops[_]? = _
        rw [EB, List.getElem?_append_right (by omega), LFB, show n - 1 - k - (n - rem.length) = rem.length - 1 - k by omega,
          List.getElem?_eq_getElem hib]
      subst ht
      refine ⟨(), _, ?_, ⟨U.ops, U.pos, Side.setErase o.tcd U.set RA[rem.length - 1 - k]⟩,
        ⟨U'.ops, U'.pos, Side.setErase o.tc U'.set RB[rem.length - 1 - k]⟩, rfl, ?_, ?_, ?_, ?_⟩
      · simp only [Act.get_bind]
        rw [Res.get_eq_ok.mpr ga, Act.lift_ok_bind, Res.get_eq_ok.mpr gb, Act.lift_ok_bind, Act.run_modify]
        have ez : (RA.zip RB).reverse.take (k + 1) =
            (RA.zip RB).reverse.take k ++ [(RA[rem.length - 1 - k], RB[rem.length - 1 - k])] := by
          have hk' : k < (RA.zip RB).reverse.length := by rw [List.length_reverse, hz]; exact hk
          rw [List.take_succ_eq_append_getElem hk', List.getElem_reverse]
          simp only [hz, List.getElem_zip]
        rw [ez]
      · rw [f1]
      · rw [f2]
      · refine c1.erase ?_
        rw [take_concat zA hk (List.getElem?_eq_getElem hia), ← List.append_assoc]
        exact List.perm_append_singleton _ _
      · refine c2.erase ?_
        rw [take_concat zB hk (List.getElem?_eq_getElem hib), ← List.append_assoc]
        exact List.perm_append_singleton _ _)
  rw [Nat.sub_self, List.take_zero, List.append_nil] at w3 w4
  have hfull : (RA.zip RB).reverse.take rem.length = (RA.zip RB).reverse := by
    rw [← hz, ← List.length_reverse]; exact List.take_length
  rw [hfull] at w0
  have hS2 : S2.ops = FA ++ RA := by rw [w1]; exact EA
  have hS2' : S2'.ops = FB ++ RB := by rw [w2]; exact EB
  refine ⟨FA, FB, RA, RB, S2, S2', X, p, ?_, ?_, hS2, hS2', PA, PB, w3, w4, ?_, ?_⟩
  · unfold DM.moveToEnd
    simp only [Act.get_bind]
    rw [e1, Act.lift_ok_bind, e2, Act.lift_ok_bind]
    simp only [hcols, hrows]
    rw [Act.bind_ok E1, Act.modify_bind, E2, w0, q1]
  · subst q1
    refine ⟨?_, ?_, ?_, ?_, ?_, ?_⟩
    · rw [w1]; exact q2.lcd
    · rw [w2]; exact q2.lc
    · rw [w1]; exact q2.pcd
    · rw [w2]; exact q2.pc
    · rw [w1, w2]; exact q2.perm
    · rw [w1, w2]; exact q2.inv
  · rw [w1]; exact q5.perm
  · rw [w2]; exact q6.perm

end CTInt
