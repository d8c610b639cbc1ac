import Verif.Proofs.DetTrial

/-!
# Replacing one operator (helper lemmas for C24, C25)
-/

set_option linter.all false

namespace CTInt

variable {K Cd Co T : Type} [Field K] [DecidableEq K] [LinearOrder T] {o : OpSys K Cd Co T}

theorem countP_ge_gt {X : Type} {τ : X → T} {F : List X} {x : X} (h : ∀ y ∈ F, τ y ≠ τ x) :
    F.countP (fun y => decide (τ x ≤ τ y)) = F.countP (fun y => decide (τ x < τ y)) := by
  refine List.countP_congr fun y hy => ?_
  simp only [decide_eq_true_eq]
  exact ⟨fun hle => lt_of_le_of_ne hle (Ne.symm (h y hy)), le_of_lt⟩

theorem neg_one_pow_natAbs_sub (a b : ℕ) : (-1 : ℤ) ^ (((a : ℤ) - b).natAbs) = (-1) ^ (a + b) := by
  rcases le_total a b with h | h
  · obtain ⟨c, rfl⟩ := Nat.exists_eq_add_of_le h
    have : ((a : ℤ) - ((a + c : ℕ) : ℤ)).natAbs = c := by omega
    rw [this, ← add_assoc, pow_add, ← two_mul, pow_mul]; simp
  · obtain ⟨c, rfl⟩ := Nat.exists_eq_add_of_le h
    have : (((b + c : ℕ) : ℤ) - (b : ℤ)).natAbs = c := by omega
    rw [this, show b + c + b = c + 2 * b by ring, pow_add, pow_mul (-1 : ℤ) 2 b]; simp

/-- The sign of a replacement of the last operator. -/
theorem replaceSign_eq {X : Type} {τ : X → T} {S : Side X T} {F : List X} {old new : X} (h : PosOK τ S.ops S.pos)
    (e : S.ops = F ++ [old]) (hn : ∀ y ∈ F, τ y ≠ τ new) :
    DM.replaceSign τ S old new = orderSign τ S.ops * orderSign τ (F ++ [new]) := by
  have hd := h.nodup
  rw [e, List.map_append] at hd
  have ho : ∀ y ∈ F, τ y ≠ τ old := fun y hy => (List.nodup_append.mp hd).2.2 _ (List.mem_map_of_mem hy) _ (by simp)
  unfold DM.replaceSign
  simp only [parity_eq]
  rw [neg_one_pow_natAbs_sub]
  unfold Side.after
  rw [h.count, h.count, e, orderSign_concat, orderSign_concat, List.countP_append, List.countP_append, countP_ge_gt ho,
    countP_ge_gt hn]
  have hsq := orderSign_sq τ F
  have expand : ∀ a b : ℕ, orderSign τ F * (-1) ^ a * (orderSign τ F * (-1) ^ b) = (-1) ^ (a + b) := by
    intro a b
    calc _ = (orderSign τ F * orderSign τ F) * ((-1) ^ a * (-1) ^ b) := by ring
      _ = _ := by rw [hsq, one_mul, pow_add]
  rw [expand]
  rcases lt_or_ge (τ old) (τ new) with hlt | hlt
  · rw [if_pos hlt]
    simp [not_le.mpr hlt, pow_add]
  · rw [if_neg (not_lt.mpr hlt)]
    simp [hlt, pow_add]

/-- The side after a replacement. -/
theorem replace_ok {X : Type} {τ : X → T} {S : Side X T} {F : List X} {old new : X} {n : ℕ} (h : PosOK τ S.ops S.pos)
    (hs : SetOK τ S.set S.ops) (e : S.ops = F ++ [old]) (hl : S.ops.length = n) (hn : ((F ++ [new]).map τ).Nodup) :
    ∃ S', S.replace τ n old new = .ok S' ∧ S'.ops = F ++ [new] ∧ SideOK τ S' := by
  have hF : F.length + 1 = n := by rw [← hl, e]; simp
  have hnew : τ new ∉ F.map τ := by
    intro hm
    rw [List.map_append] at hn
    exact (List.nodup_append.mp hn).2.2 _ hm _ (by simp) rfl
  have hp : PosOK τ F (Side.mapErase S.pos (τ old)) := by
    rw [e] at h; exact h.dropLast
  have hs' : SetOK τ (Side.setErase τ S.set old) F := by
    rw [e] at hs
    exact hs.erase List.perm_append_comm
  have hk : τ new ∉ (Side.mapErase S.pos (τ old)).map Prod.fst := by rw [hp.key_iff]; exact hnew
  refine ⟨⟨F ++ [new], (τ new, n - 1) :: Side.mapErase S.pos (τ old),
    Side.setInsert τ (Side.setErase τ S.set old) new⟩, ?_, rfl, ?_, ?_⟩
  · unfold Side.replace
    rw [Res.assert_true ⟨by omega, by omega⟩, Res.bind_ok]
    simp only [if_neg hk, Res.pure_eq]
    rw [e, show n - 1 = F.length by omega]
    simp [List.set_append]
  · show PosOK τ (F ++ [new]) _
    rw [show n - 1 = F.length by omega]
    exact hp.concat hnew
  · exact (hs'.insert hnew).congr (List.perm_append_comm (l₁ := [new]))


theorem split_last {X : Type} {τ : X → T} {l R : List X} {x : X} {n : ℕ} (hl : l.length = n + 1) (hx : l[n]? = some x)
    (hp : l.Perm (R ++ [x])) : ∃ F, l = F ++ [x] ∧ F.Perm R ∧ F.length = n := by
  refine ⟨l.take n, ?_, ?_, by simp; omega⟩
  · have : l.take (n + 1) = l.take n ++ [x] := by
      rw [List.take_add_one, hx]; rfl
    rw [← this, List.take_of_length_le (by omega)]
  · have : l = l.take n ++ [x] := by
      have : l.take (n + 1) = l.take n ++ [x] := by
        rw [List.take_add_one, hx]; rfl
      rw [← this, List.take_of_length_le (by omega)]
    rw [this] at hp
    simpa using (List.perm_append_right_iff [x]).mp (by simpa using hp)

/-- Replacing a creation operator. -/
theorem trial_replaceCd {s : DM K Cd Co T} {A A' : Conf Cd Co} {R : List Cd} (h : Good o s A) {old new : Cd}
    (h1 : A.cds.Perm (R ++ [old])) (h2 : A'.cds.Perm (R ++ [new])) (h3 : A'.cs.Perm A.cs) (hd : A'.Distinct o) :
    Trial o .tryReplaceCd (DM.tryReplaceCd o old new) (DM.performReplaceCd o) DM.rejectReplaceCd s A A' := by
  have hm : old ∈ s.cd.ops := (h.pcds.trans h1).mem_iff.mpr (by simp)
  obtain ⟨q, hq, eq⟩ := List.getElem_of_mem hm
  have hq' : s.cd.ops[q]? = some old := by rw [List.getElem?_eq_getElem hq, eq]
  obtain ⟨m, hn⟩ : ∃ m, A.cds.length = m + 1 := ⟨R.length, by rw [h1.length_eq]; simp⟩
  have hqn : q < A.cds.length := by rw [← h.core.lcd]; exact hq
  -- the exchange
  obtain ⟨S, X, p, e1, c1, st1, pm1, ix1⟩ : ∃ S X p,
      (if q ≠ A.cds.length - 1 then DM.swapCd o q (A.cds.length - 1) else pure ())
        { s with state := .tryReplaceCd, newCd := some new, oldCd := some old } =
        (.ok (), { s with
          state := .tryReplaceCd, newCd := some new, oldCd := some old, cd := S, inv := X, perm := p }) ∧
      Core o { s with
          state := .tryReplaceCd, newCd := some new, oldCd := some old, cd := S, inv := X, perm := p } A.cds.length ∧
      S.set = s.cd.set ∧ S.ops.Perm s.cd.ops ∧ S.ops[A.cds.length - 1]? = some old := by
    by_cases hc : q = A.cds.length - 1
    · rw [if_neg (by simp [hc])]
      exact ⟨s.cd, s.inv, s.perm, rfl, h.core.frame rfl rfl rfl rfl, rfl, .refl _, by rw [← hc]; exact hq'⟩
    · rw [if_pos hc]
      obtain ⟨S, X, p, a, b, c, d, e⟩ := swapCd_ok o
        (s := { s with state := .tryReplaceCd, newCd := some new, oldCd := some old }) (i := q) (j := A.cds.length - 1)
        (h.core.frame rfl rfl rfl rfl) hqn (by omega)
      exact ⟨S, X, p, a, b, c, d, by rw [e, Equiv.swap_apply_right]; exact hq'⟩
  have lS : S.ops.length = A.cds.length := c1.lcd
  obtain ⟨F, eF, pF, lF⟩ := split_last (τ := o.tcd) (n := m) (by rw [lS, hn])
    (by rw [show m = A.cds.length - 1 by omega]; exact ix1) (pm1.trans (h.pcds.trans h1))
  have ndF : ((F ++ [new]).map o.tcd).Nodup := by
    rw [(((pF.append_right _).trans h2.symm).map _).nodup_iff]; exact (List.nodup_append.mp hd).1
  have hnew : ∀ y ∈ F, o.tcd y ≠ o.tcd new := by
    rw [List.map_append] at ndF
    exact fun y hy => (List.nodup_append.mp ndF).2.2 _ (List.mem_map_of_mem hy) _ (by simp)
  have sgn := replaceSign_eq c1.pcd eF hnew
  have hset : SetOK o.tcd S.set S.ops := by
    rw [show S.set = s.cd.set from st1]; exact h.scd.congr pm1.symm
  have col : ∀ i < A.cds.length, ∀ j < A.cds.length,
      withCol (greenAt o.G s.c.ops S.ops) (A.cds.length - 1) (fun i => entry o.G s.c.ops [new] i 0) i j =
        greenAt o.G s.c.ops (F ++ [new]) i j := by
    intro i hi j hj
    unfold withCol
    split_ifs with hc
    · rw [entry_eq]
      unfold greenAt
      rw [hc, List.getElem?_append_right (by omega), show A.cds.length - 1 - F.length = 0 by omega]
    · unfold greenAt
      rw [eF, List.getElem?_append_left (by omega), List.getElem?_append_left (by omega)]
  have D' := detN_congr' col
  have iv : IsInvOf X A.cds.length (greenAt o.G s.c.ops S.ops) := c1.inv
  have e2 := C16_inc_detRatioLastCol (col := ⟨A.cds.length, 1, fun i _ => entry o.G s.c.ops [new] i 0⟩) (by omega) iv rfl rfl
  have lA' : A'.cds.length = A.cds.length := by rw [h2.length_eq, h1.length_eq]; simp
  have lA2 : A'.cds.length = A'.cs.length := by rw [lA', h.len, h3.length_eq]
  have pA' : (F ++ [new]).Perm A'.cds := (pF.append_right _).trans h2.symm
  have det' := det_ordered o (h.pcs.trans h3.symm) pA' lA2 hd
  rw [show (F ++ [new]).length = A.cds.length by simp; omega, ← D'] at det'
  have det0 := det_ordered o h.pcs (pm1.trans h.pcds) h.len h.dist
  rw [lS] at det0
  obtain ⟨r, hr⟩ : ∃ r, r = DM.replaceSign o.tcd S old new := ⟨_, rfl⟩
  obtain ⟨d, hdd⟩ : ∃ d, d = detN A.cds.length (withCol (greenAt o.G s.c.ops S.ops) (A.cds.length - 1)
    (fun i => entry o.G s.c.ops [new] i 0)) / detN A.cds.length (greenAt o.G s.c.ops S.ops) := ⟨_, rfl⟩
  have hrr : r = orderSign o.tcd S.ops * orderSign o.tc s.c.ops * (orderSign o.tcd (F ++ [new]) * orderSign o.tc s.c.ops) := by
    rw [hr, sgn, mul_mul_mul_comm, orderSign_sq, mul_one]
  have ratio : (r : K) * d = A'.det o / A.det o := by
    rw [hrr, hdd, ratio_sign (sgn2_sq _ _ _ _), det', det0]
    push_cast; rfl
  dsimp only at e2
  rw [← hdd] at e2
  refine ⟨{ s with
    state := .tryReplaceCd, newCd := some new, oldCd := some old, cd := S, inv := X, perm := p,
    Gjn := ⟨A.cds.length, 1, fun i _ => entry o.G s.c.ops [new] i 0⟩, permRat := r, detRat := d }, ?_, rfl,
    rfl, ?_, ?_⟩
  · unfold DM.tryReplaceCd
    rw [checkState_bind h.st, setState_bind, Act.get_bind, Act.modify_bind]
    dsimp only
    rw [find_ok h.core.pcd hq', Act.lift_ok_bind, h.core.inv.1, Act.assert_pos (by omega), Act.bind_ok e1, Act.get_bind,
      Act.assert_pos (by show _ ≤ s.c.ops.length; rw [h.core.lc]), Act.modify_bind, Act.get_bind, Act.modify_bind,
      Act.get_bind]
    dsimp only
    rw [e2, Act.lift_ok_bind, Act.modify_bind, Act.run_pure, ← hr, ratio]
  · intro hne
    have hD : detN A.cds.length (withCol (greenAt o.G s.c.ops S.ops) (A.cds.length - 1)
        (fun i => entry o.G s.c.ops [new] i 0)) ≠ 0 := by
      intro hz; rw [det', hz, mul_zero] at hne; exact hne rfl
    obtain ⟨Y, e4, iv'⟩ := C16_inc_inverseLastCol
      (col := ⟨A.cds.length, 1, fun i _ => entry o.G s.c.ops [new] i 0⟩) (by omega) iv rfl rfl hD
    dsimp only at e4
    rw [← hdd] at e4
    obtain ⟨S', e5, o5, k5⟩ := replace_ok c1.pcd hset eF lS ndF
    refine ⟨{ s with
      state := .waiting, newCd := some new, oldCd := some old, cd := S', inv := Y, perm := p * r,
      Gjn := ⟨A.cds.length, 1, fun i _ => entry o.G s.c.ops [new] i 0⟩, permRat := r, detRat := d }, ?_, rfl, ?_⟩
    · unfold DM.performReplaceCd
      refine (checkState_bind (st := .tryReplaceCd) rfl _).trans ?_
      rw [setState_bind, Act.get_bind]
      dsimp only
      rw [e4, Act.lift_ok_bind, Act.modify_bind, iv.1]
      dsimp only
      rw [e5, Act.lift_ok_bind]
      rfl
    · refine ⟨rfl, ⟨?_, ?_, k5.pos, h.core.pc, ?_, ?_⟩, k5.set, h.sc, ?_, h.pcs.trans h3.symm, hd⟩
      · rw [o5, lA']; simp; omega
      · rw [lA']; exact h.core.lc
      · show p * r = orderSign o.tcd S'.ops * orderSign o.tc s.c.ops
        rw [hrr, o5, show p = _ from c1.perm, ← mul_assoc, sgn2_sq, one_mul]
      · rw [lA', o5]
        exact iv'.congr col
      · rw [o5]; exact pA'
  · refine ⟨{ s with
      state := .waiting, newCd := some new, oldCd := some old, cd := S, inv := X, perm := p,
      Gjn := ⟨A.cds.length, 1, fun i _ => entry o.G s.c.ops [new] i 0⟩, permRat := r, detRat := d }, ?_, rfl, ?_⟩
    · unfold DM.rejectReplaceCd
      exact (checkState_bind (st := .tryReplaceCd) rfl _).trans rfl
    · exact ⟨rfl, c1.frame rfl rfl rfl rfl, hset, h.sc, pm1.trans h.pcds, h.pcs, h.dist⟩

/-- Replacing an annihilation operator. -/
theorem trial_replaceC {s : DM K Cd Co T} {A A' : Conf Cd Co} {R : List Co} (h : Good o s A) {old new : Co}
    (h1 : A.cs.Perm (R ++ [old])) (h2 : A'.cs.Perm (R ++ [new])) (h3 : A'.cds.Perm A.cds) (hd : A'.Distinct o) :
    Trial o .tryReplaceC (DM.tryReplaceC o old new) (DM.performReplaceC o) DM.rejectReplaceC s A A' := by
  have hm : old ∈ s.c.ops := (h.pcs.trans h1).mem_iff.mpr (by simp)
  obtain ⟨q, hq, eq⟩ := List.getElem_of_mem hm
  have hq' : s.c.ops[q]? = some old := by rw [List.getElem?_eq_getElem hq, eq]
  obtain ⟨m, hn⟩ : ∃ m, A.cds.length = m + 1 := ⟨R.length, by rw [h.len, h1.length_eq]; simp⟩
  have hqn : q < A.cds.length := by rw [← h.core.lc]; exact hq
  -- the exchange
  obtain ⟨S, X, p, e1, c1, st1, pm1, ix1⟩ : ∃ S X p,
      (if q ≠ A.cds.length - 1 then DM.swapC o q (A.cds.length - 1) else pure ())
        { s with state := .tryReplaceC, newC := some new, oldC := some old } =
        (.ok (), { s with
          state := .tryReplaceC, newC := some new, oldC := some old, c := S, inv := X, perm := p }) ∧
      Core o { s with
          state := .tryReplaceC, newC := some new, oldC := some old, c := S, inv := X, perm := p } A.cds.length ∧
      S.set = s.c.set ∧ S.ops.Perm s.c.ops ∧ S.ops[A.cds.length - 1]? = some old := by
    by_cases hc : q = A.cds.length - 1
    · rw [if_neg (by simp [hc])]
      exact ⟨s.c, s.inv, s.perm, rfl, h.core.frame rfl rfl rfl rfl, rfl, .refl _, by rw [← hc]; exact hq'⟩
    · rw [if_pos hc]
      obtain ⟨S, X, p, a, b, c, d, e⟩ := swapC_ok o
        (s := { s with state := .tryReplaceC, newC := some new, oldC := some old }) (i := q) (j := A.cds.length - 1)
        (h.core.frame rfl rfl rfl rfl) hqn (by omega)
      exact ⟨S, X, p, a, b, c, d, by rw [e, Equiv.swap_apply_right]; exact hq'⟩
  have lS : S.ops.length = A.cds.length := c1.lc
  obtain ⟨F, eF, pF, lF⟩ := split_last (τ := o.tc) (n := m) (by rw [lS, hn])
    (by rw [show m = A.cds.length - 1 by omega]; exact ix1) (pm1.trans (h.pcs.trans h1))
  have ndF : ((F ++ [new]).map o.tc).Nodup := by
    rw [(((pF.append_right _).trans h2.symm).map _).nodup_iff]; exact (List.nodup_append.mp hd).2.1
  have hnew : ∀ y ∈ F, o.tc y ≠ o.tc new := by
    rw [List.map_append] at ndF
    exact fun y hy => (List.nodup_append.mp ndF).2.2 _ (List.mem_map_of_mem hy) _ (by simp)
  have sgn := replaceSign_eq c1.pc eF hnew
  have hset : SetOK o.tc S.set S.ops := by
    rw [show S.set = s.c.set from st1]; exact h.sc.congr pm1.symm
  have row : ∀ i < A.cds.length, ∀ j < A.cds.length,
      withRow (greenAt o.G S.ops s.cd.ops) (A.cds.length - 1) (fun j => entry o.G [new] s.cd.ops 0 j) i j =
        greenAt o.G (F ++ [new]) s.cd.ops i j := by
    intro i hi j hj
    unfold withRow
    split_ifs with hc
    · rw [entry_eq]
      unfold greenAt
      rw [hc, List.getElem?_append_right (by omega), show A.cds.length - 1 - F.length = 0 by omega]
    · unfold greenAt
      rw [eF, List.getElem?_append_left (by omega), List.getElem?_append_left (by omega)]
  have D' := detN_congr' row
  have iv : IsInvOf X A.cds.length (greenAt o.G S.ops s.cd.ops) := c1.inv
  have e2 := C16_inc_detRatioLastRow (row := ⟨1, A.cds.length, fun _ i => entry o.G [new] s.cd.ops 0 i⟩) (by omega) iv rfl rfl
  have lA' : A'.cds.length = A.cds.length := h3.length_eq
  have lA2 : A'.cds.length = A'.cs.length := by rw [lA', h.len, h2.length_eq, h1.length_eq]; simp
  have pA' : (F ++ [new]).Perm A'.cs := (pF.append_right _).trans h2.symm
  have det' := det_ordered o pA' (h.pcds.trans h3.symm) lA2 hd
  rw [h.core.lcd, ← D'] at det'
  have det0 := det_ordered o (pm1.trans h.pcs) h.pcds h.len h.dist
  rw [h.core.lcd] at det0
  obtain ⟨r, hr⟩ : ∃ r, r = DM.replaceSign o.tc S old new := ⟨_, rfl⟩
  obtain ⟨d, hdd⟩ : ∃ d, d = detN A.cds.length (withRow (greenAt o.G S.ops s.cd.ops) (A.cds.length - 1)
    (fun j => entry o.G [new] s.cd.ops 0 j)) / detN A.cds.length (greenAt o.G S.ops s.cd.ops) := ⟨_, rfl⟩
  have hrr : r = orderSign o.tcd s.cd.ops * orderSign o.tc S.ops * (orderSign o.tcd s.cd.ops * orderSign o.tc (F ++ [new])) := by
    rw [hr, sgn, mul_mul_mul_comm, orderSign_sq, one_mul]
  have ratio : (r : K) * d = A'.det o / A.det o := by
    rw [hrr, hdd, ratio_sign (sgn2_sq _ _ _ _), det', det0]
    push_cast; rfl
  dsimp only at e2
  rw [← hdd] at e2
  refine ⟨{ s with
    state := .tryReplaceC, newC := some new, oldC := some old, c := S, inv := X, perm := p,
    Gnj := ⟨1, A.cds.length, fun _ i => entry o.G [new] s.cd.ops 0 i⟩, permRat := r, detRat := d }, ?_, rfl,
    rfl, ?_, ?_⟩
  · unfold DM.tryReplaceC
    rw [checkState_bind h.st, setState_bind, Act.get_bind, Act.modify_bind]
    dsimp only
    rw [find_ok h.core.pc hq', Act.lift_ok_bind, h.core.inv.1, Act.assert_pos (by omega), Act.bind_ok e1, Act.get_bind,
      Act.assert_pos (by show _ ≤ s.cd.ops.length; rw [h.core.lcd]), Act.modify_bind, Act.get_bind, Act.modify_bind,
      Act.get_bind]
    dsimp only
    rw [e2, Act.lift_ok_bind, Act.modify_bind, Act.run_pure, ← hr, ratio]
  · intro hne
    have hD : detN A.cds.length (withRow (greenAt o.G S.ops s.cd.ops) (A.cds.length - 1)
        (fun j => entry o.G [new] s.cd.ops 0 j)) ≠ 0 := by
      intro hz; rw [det', hz, mul_zero] at hne; exact hne rfl
    obtain ⟨Y, e4, iv'⟩ := C16_inc_inverseLastRow
      (row := ⟨1, A.cds.length, fun _ i => entry o.G [new] s.cd.ops 0 i⟩) (by omega) iv rfl rfl hD
    dsimp only at e4
    rw [← hdd] at e4
    obtain ⟨S', e5, o5, k5⟩ := replace_ok c1.pc hset eF lS ndF
    refine ⟨{ s with
      state := .waiting, newC := some new, oldC := some old, c := S', inv := Y, perm := p * r,
      Gnj := ⟨1, A.cds.length, fun _ i => entry o.G [new] s.cd.ops 0 i⟩, permRat := r, detRat := d }, ?_, rfl, ?_⟩
    · unfold DM.performReplaceC
      refine (checkState_bind (st := .tryReplaceC) rfl _).trans ?_
      rw [setState_bind, Act.get_bind]
      dsimp only
      rw [e4, Act.lift_ok_bind, Act.modify_bind, iv.1]
      dsimp only
      rw [e5, Act.lift_ok_bind]
      rfl
    · refine ⟨rfl, ⟨?_, ?_, h.core.pcd, k5.pos, ?_, ?_⟩, h.scd, k5.set, h.pcds.trans h3.symm, ?_, hd⟩
      · rw [lA']; exact h.core.lcd
      · rw [o5, lA']; simp; omega
      · show p * r = orderSign o.tcd s.cd.ops * orderSign o.tc S'.ops
        rw [hrr, o5, show p = _ from c1.perm, ← mul_assoc, sgn2_sq, one_mul]
      · rw [lA', o5]
        exact iv'.congr row
      · rw [o5]; exact pA'
  · refine ⟨{ s with
      state := .waiting, newC := some new, oldC := some old, c := S, inv := X, perm := p,
      Gnj := ⟨1, A.cds.length, fun _ i => entry o.G [new] s.cd.ops 0 i⟩, permRat := r, detRat := d }, ?_, rfl, ?_⟩
    · unfold DM.rejectReplaceC
      exact (checkState_bind (st := .tryReplaceC) rfl _).trans rfl
    · exact ⟨rfl, c1.frame rfl rfl rfl rfl, h.scd, hset, h.pcds, pm1.trans h.pcs, h.dist⟩

end CTInt
