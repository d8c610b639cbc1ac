import Verif.Proofs.DetMove
import Verif.Proofs.DetSane
import Verif.Props.FastUpdate
import Verif.Props.Removal
import Verif.Props.Replace
import Mathlib.Data.Multiset.AddSub

/-!
# One trial of each kind (helper lemmas for C24, C25)
-/

set_option linter.all false

namespace CTInt

variable {K Cd Co T : Type} [Field K] [DecidableEq K] [LinearOrder T] (o : OpSys K Cd Co T)

/-- The object holds the operators of configuration `A`. -/
structure Good (s : DM K Cd Co T) (A : Conf Cd Co) : Prop where
  st : s.state = .waiting
  core : Core o s A.cds.length
  scd : SetOK o.tcd s.cd.set s.cd.ops
  sc : SetOK o.tc s.c.set s.c.ops
  pcds : s.cd.ops.Perm A.cds
  pcs : s.c.ops.Perm A.cs
  dist : A.Distinct o

variable {o} in
theorem Good.sane {s : DM K Cd Co T} {A : Conf Cd Co} (h : Good o s A) : Sane o s := ⟨h.st, ⟨_, h.core⟩, h.scd, h.sc⟩

variable {o} in
/-- An action that ends with the checks. -/
theorem Good.checked {dbg : Bool} {f : Act (DM K Cd Co T) Unit} {s1 S : DM K Cd Co T} {A : Conf Cd Co} {m : Option DMode}
    (hf : f s1 = DM.sanityCheck o dbg S) (hm : S.mode = m) (g : Good o S A) :
    ∃ s2, f s1 = (.ok (), s2) ∧ s2.mode = m ∧ Good o s2 A :=
  ⟨S, hf.trans (sanityCheck_ok g.sane), hm, g⟩

/-- A trial reports the exact ratio; performing it leads to the new, rejecting it back to the old configuration. -/
def Trial (st : DState) (t : Act (DM K Cd Co T) K) (pf rj : Act (DM K Cd Co T) Unit) (s : DM K Cd Co T) (A A' : Conf Cd Co) : Prop :=
  ∃ s1, t s = (.ok (A'.det o / A.det o), s1) ∧ s1.mode = s.mode ∧ s1.state = st ∧
    (A'.det o ≠ 0 → ∃ s2, pf s1 = (.ok (), s2) ∧ s2.mode = s.mode ∧ Good o s2 A') ∧
    ∃ s2, rj s1 = (.ok (), s2) ∧ s2.mode = s.mode ∧ Good o s2 A

variable {o}

theorem Good.len {s : DM K Cd Co T} {A : Conf Cd Co} (h : Good o s A) : A.cds.length = A.cs.length := by
  rw [← h.pcds.length_eq, ← h.pcs.length_eq, h.core.lcd, h.core.lc]

theorem Good.side_cd {s : DM K Cd Co T} {A : Conf Cd Co} (h : Good o s A) : SideOK o.tcd s.cd := ⟨h.core.pcd, h.scd⟩
theorem Good.side_c {s : DM K Cd Co T} {A : Conf Cd Co} (h : Good o s A) : SideOK o.tc s.c := ⟨h.core.pc, h.sc⟩

theorem Good.det_eq {s : DM K Cd Co T} {A : Conf Cd Co} (h : Good o s A) :
    A.det o = (s.perm : K) * detN A.cds.length (greenAt o.G s.c.ops s.cd.ops) := by
  rw [det_ordered o h.pcs h.pcds h.len h.dist, h.core.perm, h.core.lcd]
  push_cast; rfl

theorem Good.same {s : DM K Cd Co T} {A A' : Conf Cd Co} (h : Good o s A) (hA : A.Same A') : Good o s A' :=
  ⟨h.st, by rw [← hA.1.length_eq]; exact h.core, h.scd, h.sc, h.pcds.trans hA.1, h.pcs.trans hA.2, h.dist.same hA⟩

theorem Core.frame {s t : DM K Cd Co T} {n : ℕ} (h : Core o s n) (h1 : t.cd = s.cd) (h2 : t.c = s.c) (h3 : t.perm = s.perm)
    (h4 : t.inv = s.inv) : Core o t n :=
  ⟨by rw [h1]; exact h.lcd, by rw [h2]; exact h.lc, by rw [h1]; exact h.pcd, by rw [h2]; exact h.pc,
    by rw [h1, h2, h3]; exact h.perm, by rw [h1, h2, h4]; exact h.inv⟩

theorem Good.frame {s t : DM K Cd Co T} {A : Conf Cd Co} (h : Good o s A) (h0 : t.state = .waiting) (h1 : t.cd = s.cd)
    (h2 : t.c = s.c) (h3 : t.perm = s.perm) (h4 : t.inv = s.inv) : Good o t A :=
  ⟨h0, h.core.frame h1 h2 h3 h4, by rw [h1]; exact h.scd, by rw [h2]; exact h.sc, by rw [h1]; exact h.pcds,
    by rw [h2]; exact h.pcs, h.dist⟩

theorem ratio_sign {a b : ℤ} (ha : a * a = 1) (D D' : K) :
    ((a * b : ℤ) : K) * (D' / D) = ((b : K) * D') / ((a : K) * D) := by
  rcases mul_self_eq_one_iff.mp ha with h | h <;> subst h <;> push_cast
  · ring
  · rw [neg_one_mul, neg_one_mul, div_neg]; ring

theorem sgn2_sq (τ : Cd → T) (τ' : Co → T) (l : List Cd) (l' : List Co) :
    (orderSign τ l * orderSign τ' l') * (orderSign τ l * orderSign τ' l') = 1 := by
  rw [mul_mul_mul_comm, orderSign_sq, orderSign_sq, one_mul]

theorem sgn2_ne (τ : Cd → T) (τ' : Co → T) (l : List Cd) (l' : List Co) :
    ((orderSign τ l : K) * (orderSign τ' l' : K)) ≠ 0 := by
  intro h
  have := congrArg (fun z : ℤ => (z : K)) (sgn2_sq τ τ' l l')
  push_cast at this
  rw [h] at this
  simp at this

theorem greenAt_append_left {G : Co → Cd → K} {cs cs' : List Co} {cds cds' : List Cd} {i j : ℕ} (hi : i < cs.length)
    (hj : j < cds.length) : greenAt G (cs ++ cs') (cds ++ cds') i j = greenAt G cs cds i j := by
  unfold greenAt
  rw [List.getElem?_append_left hi, List.getElem?_append_left hj]

theorem detN_congr' {n : ℕ} {g g' : ℕ → ℕ → K} (h : ∀ i < n, ∀ j < n, g i j = g' i j) : detN n g = detN n g' := by
  unfold detN; rw [toM_congr h]

/-- The times of pairs. -/
theorem pairTimes_perm (ps : List (Cd × Co)) :
    (DM.pairTimes o ps).Perm ((ps.map Prod.fst).map o.tcd ++ (ps.map Prod.snd).map o.tc) := by
  induction ps with
  | nil => exact .refl _
  | cons p ps ih =>
    show (o.tcd p.1 :: o.tc p.2 :: DM.pairTimes o ps).Perm _
    simp only [List.map_cons, List.cons_append]
    refine .cons _ ?_
    exact (List.Perm.cons _ ih).trans List.perm_middle.symm

theorem times_ext (A : Conf Cd Co) (ps : List (Cd × Co)) :
    ((A.cds ++ ps.map Prod.fst).map o.tcd ++ (A.cs ++ ps.map Prod.snd).map o.tc).Perm
      ((A.cds.map o.tcd ++ A.cs.map o.tc) ++ DM.pairTimes o ps) := by
  refine List.Perm.trans ?_ ((pairTimes_perm ps).symm.append_left _)
  rw [List.map_append, List.map_append, ← Multiset.coe_eq_coe]
  simp only [← Multiset.coe_add]
  exact add_add_add_comm _ _ _ _

theorem exist_iff {s : DM K Cd Co T} {A : Conf Cd Co} (h1 : PosOK o.tcd s.cd.ops s.cd.pos)
    (h2 : PosOK o.tc s.c.ops s.c.pos) (p1 : s.cd.ops.Perm A.cds) (p2 : s.c.ops.Perm A.cs) (t : T) :
    s.Exist t ↔ t ∈ A.cds.map o.tcd ++ A.cs.map o.tc := by
  unfold DM.Exist Side.Has
  rw [h1.key_iff, h2.key_iff, (p1.map _).mem_iff, (p2.map _).mem_iff, List.mem_append, or_comm]

theorem pairTimes_mem {ps : List (Cd × Co)} {P : T → Prop} :
    (∀ p ∈ ps, P (o.tcd p.1) ∧ P (o.tc p.2)) ↔ ∀ t ∈ DM.pairTimes o ps, P t := by
  unfold DM.pairTimes
  constructor
  · intro h t ht
    obtain ⟨p, hp, ht⟩ := List.mem_flatMap.mp ht
    simp only [List.mem_cons, List.not_mem_nil, or_false] at ht
    rcases ht with rfl | rfl
    · exact (h p hp).1
    · exact (h p hp).2
  · intro h p hp
    exact ⟨h _ (List.mem_flatMap.mpr ⟨p, hp, by simp⟩), h _ (List.mem_flatMap.mpr ⟨p, hp, by simp⟩)⟩

theorem insertionPossible_iff {s : DM K Cd Co T} {A : Conf Cd Co} (hd : A.Distinct o)
    (h1 : PosOK o.tcd s.cd.ops s.cd.pos) (h2 : PosOK o.tc s.c.ops s.c.pos) (p1 : s.cd.ops.Perm A.cds)
    (p2 : s.c.ops.Perm A.cs) (ps : List (Cd × Co)) :
    DM.InsertionPossible o s ps ↔ (Conf.mk (A.cds ++ ps.map Prod.fst) (A.cs ++ ps.map Prod.snd)).Distinct o := by
  unfold DM.InsertionPossible Conf.Distinct
  rw [(times_ext A ps).nodup_iff, List.nodup_append]
  have e : (∀ p ∈ ps, ¬ (s.Exist (o.tcd p.1) ∨ s.Exist (o.tc p.2))) ↔
      ∀ t ∈ DM.pairTimes o ps, ¬ s.Exist t := by
    rw [← pairTimes_mem]; simp only [not_or]
  rw [e]
  constructor
  · rintro ⟨a, b⟩
    exact ⟨hd, b, fun t ht u hu e => a u hu ((exist_iff h1 h2 p1 p2 u).mpr (e ▸ ht))⟩
  · rintro ⟨-, b, c⟩
    exact ⟨fun t ht he => c t ((exist_iff h1 h2 p1 p2 t).mp he) t ht rfl, b⟩

/-- The blocks of new elements. -/
theorem newBlocks_ok {s : DM K Cd Co T} {N M : ℕ} (h1 : s.cd.ops.length = N + M) (h2 : s.c.ops.length = N + M) :
    ∃ B C D, DM.newBlocks o N M s = (.ok (), { s with Gnj := C, Gjn := B, Gnn := D }) ∧
      UpBlocks N M (greenAt o.G s.c.ops s.cd.ops) B C D := by
  refine ⟨⟨N, M, fun i j => entry o.G s.c.ops s.cd.ops (0 + i) (N + j)⟩,
    ⟨M, N, fun i j => entry o.G s.c.ops s.cd.ops (N + i) (0 + j)⟩,
    ⟨M, M, fun i j => entry o.G s.c.ops s.cd.ops (N + i) (N + j)⟩, ?_, ?_⟩
  · unfold DM.newBlocks
    rw [Act.get_bind]
    unfold DM.gBlock
    rw [Res.assert_true (Or.inr (Or.inr ⟨by omega, by omega⟩)), Res.assert_true (Or.inr (Or.inr ⟨by omega, by omega⟩)),
      Res.assert_true (Or.inr (Or.inr ⟨by omega, by omega⟩))]
    rfl
  · refine ⟨rfl, rfl, rfl, rfl, rfl, rfl, ?_, ?_, ?_⟩
    · intro i _ j _; simp only [entry_eq, Nat.zero_add]
    · intro i _ j _; simp only [entry_eq, Nat.zero_add]
    · intro i _ j _; simp only [entry_eq]

theorem setState_bind {β : Type} {st : DState} {s : DM K Cd Co T} (f : Unit → Act (DM K Cd Co T) β) :
    (DM.setState st >>= f) s = f () { s with state := st } := rfl

/-- Inserting pairs. -/
theorem trial_add (dbg : Bool) (junk : ℕ → ℕ → K) {s : DM K Cd Co T} {A A' : Conf Cd Co} (h : Good o s A)
    {ps : List (Cd × Co)} (hps : ps ≠ []) (h1 : A'.cds.Perm (A.cds ++ ps.map Prod.fst))
    (h2 : A'.cs.Perm (A.cs ++ ps.map Prod.snd)) (hd : A'.Distinct o) :
    Trial o .tryAdd (DM.tryAdd o ps) (DM.performAdd junk) (DM.rejectAdd o dbg) s A A' := by
  have hM : 0 < ps.length := List.length_pos_iff.mpr hps
  have hd' : (Conf.mk (A.cds ++ ps.map Prod.fst) (A.cs ++ ps.map Prod.snd)).Distinct o := hd.same ⟨h1, h2⟩
  have n1 : ((s.cd.ops ++ ps.map Prod.fst).map o.tcd).Nodup := by
    rw [((h.pcds.append_right _).map _).nodup_iff]; exact (List.nodup_append.mp hd').1
  have n2 : ((s.c.ops ++ ps.map Prod.snd).map o.tc).Nodup := by
    rw [((h.pcs.append_right _).map _).nodup_iff]; exact (List.nodup_append.mp hd').2.1
  have lcd := h.core.lcd
  have lc := h.core.lc
  have hl : s.cd.ops.length = s.c.ops.length := by rw [lcd, lc]
  obtain ⟨S, S', e1, o1, o2, k1, k2⟩ := addNew_ok o (s := { s with state := .tryAdd }) ps h.side_cd h.side_c hl n1 n2
  simp only at e1 o1 o2
  have L1 : S.ops.length = A.cds.length + ps.length := by rw [o1]; simp [lcd]
  have L2 : S'.ops.length = A.cds.length + ps.length := by rw [o2]; simp [lc]
  obtain ⟨r, hr⟩ : ∃ r, r = orderSign o.tcd s.cd.ops * orderSign o.tc s.c.ops *
    (orderSign o.tcd S.ops * orderSign o.tc S'.ops) := ⟨_, rfl⟩
  rw [← hr] at e1
  obtain ⟨B, C, D, e2, ub⟩ := newBlocks_ok (o := o)
    (s := { s with state := .tryAdd, cd := S, c := S', permRat := r }) (N := A.cds.length) (M := ps.length) L1 L2
  have iv : IsInvOf s.inv A.cds.length (greenAt o.G S'.ops S.ops) := by
    refine h.core.inv.congr fun i hi j hj => ?_
    rw [o1, o2, greenAt_append_left (by omega) (by omega)]
  have D0 : detN A.cds.length (greenAt o.G S'.ops S.ops) = detN A.cds.length (greenAt o.G s.c.ops s.cd.ops) := by
    refine detN_congr' fun i hi j hj => ?_
    rw [o1, o2, greenAt_append_left (by omega) (by omega)]
  have e3 := C11_inc_detRatioUp hM ub iv
  have pA' : S.ops.Perm A'.cds := by rw [o1]; exact (h.pcds.append_right _).trans h1.symm
  have pB' : S'.ops.Perm A'.cs := by rw [o2]; exact (h.pcs.append_right _).trans h2.symm
  have lA' : A'.cds.length = A.cds.length + ps.length := by rw [← pA'.length_eq, L1]
  have lA'' : A'.cds.length = A'.cs.length := by rw [lA', ← pB'.length_eq, L2]
  have det' := det_ordered o pB' pA' lA'' hd
  rw [L1] at det'
  have det0 := h.det_eq
  rw [← D0] at det0
  have hperm := h.core.perm
  have ratio : (r : K) * (detN (A.cds.length + ps.length) (greenAt o.G S'.ops S.ops) /
      detN A.cds.length (greenAt o.G S'.ops S.ops)) = A'.det o / A.det o := by
    rw [hr, ratio_sign (sgn2_sq _ _ _ _), det', det0, hperm]
    push_cast; rfl
  refine ⟨{ s with state := .tryAdd, cd := S, c := S', permRat := r, Gnj := C, Gjn := B, Gnn := D }, ?_, rfl,
    rfl, ?_, ?_⟩
  · unfold DM.tryAdd
    rw [checkState_bind h.st, setState_bind, Act.get_bind]
    rw [if_neg (by
      rw [not_not]
      exact (insertionPossible_iff (s := { s with state := .tryAdd }) h.dist h.core.pcd h.core.pc h.pcds h.pcs ps).mpr hd')]
    rw [Act.bind_ok e1, Act.modify_bind, h.core.inv.1, Act.bind_ok e2, Act.get_bind, e3, Act.lift_ok_bind, Act.run_pure,
      ratio]
  · intro hne
    have hD : detN (A.cds.length + ps.length) (greenAt o.G S'.ops S.ops) ≠ 0 := by
      intro hz; rw [det', hz, mul_zero] at hne; exact hne rfl
    obtain ⟨Y, e4, iv'⟩ := C11_inc_inverseUp junk hM ub iv hD
    refine ⟨{ s with
      state := .waiting, cd := S, c := S', permRat := r, Gnj := C, Gjn := B, Gnn := D, inv := Y,
      perm := s.perm * r }, ?_, rfl, ?_⟩
    · unfold DM.performAdd
      refine (checkState_bind (st := .tryAdd) rfl _).trans ?_
      rw [setState_bind, Act.get_bind, e4, Act.lift_ok_bind]
      rfl
    · refine ⟨rfl, ⟨?_, ?_, k1.pos, k2.pos, ?_, ?_⟩, k1.set, k2.set, pA', pB', hd⟩
      · rw [lA']; exact L1
      · rw [lA']; exact L2
      · show s.perm * r = _
        rw [hr, hperm, ← mul_assoc, sgn2_sq, one_mul]
      · rw [lA']; exact iv'
  · refine Good.checked (dbg := dbg) (S := { s with
      state := .waiting, permRat := r, Gnj := C, Gjn := B, Gnn := D,
      cd := cutSide o.tcd S s.cd.ops (ps.map Prod.fst), c := cutSide o.tc S' s.c.ops (ps.map Prod.snd) }) ?_ rfl ?_
    · unfold DM.rejectAdd
      refine (checkState_bind (st := .tryAdd) rfl _).trans ?_
      rw [setState_bind]
      exact removeExcess_ok o dbg o1 o2 hl (by simp) (h.core.inv.1.trans lcd.symm) k1.pos
    · have q1 : PosOK o.tcd s.cd.ops (cutSide o.tcd S s.cd.ops (ps.map Prod.fst)).pos := by
        have := k1.pos; rw [o1] at this; exact this.truncate
      have q2 : PosOK o.tc s.c.ops (cutSide o.tc S' s.c.ops (ps.map Prod.snd)).pos := by
        have := k2.pos; rw [o2] at this; exact this.truncate
      have q3 : SetOK o.tcd (cutSide o.tcd S s.cd.ops (ps.map Prod.fst)).set s.cd.ops := by
        have := k1.set; rw [o1] at this; exact this.truncate
      have q4 : SetOK o.tc (cutSide o.tc S' s.c.ops (ps.map Prod.snd)).set s.c.ops := by
        have := k2.set; rw [o2] at this; exact this.truncate
      exact ⟨rfl, ⟨lcd, lc, q1, q2, hperm, h.core.inv⟩, q3, q4, h.pcds, h.pcs, h.dist⟩

/-- An insertion that cannot be done is reported as 0 and rejecting it changes nothing. -/
theorem trial_clash (dbg : Bool) {s : DM K Cd Co T} {A : Conf Cd Co} (h : Good o s A)
    {ps : List (Cd × Co)} (hc : ¬ (Conf.mk (A.cds ++ ps.map Prod.fst) (A.cs ++ ps.map Prod.snd)).Distinct o) :
    ∃ s1, DM.tryAdd o ps s = (.ok 0, s1) ∧ s1.mode = s.mode ∧ DM.rejectAdd o dbg s1 = (.ok (), s) := by
  refine ⟨{ s with state := .tryAdd }, ?_, rfl, ?_⟩
  · unfold DM.tryAdd
    rw [checkState_bind h.st, setState_bind, Act.get_bind]
    rw [if_pos (fun hp => hc ((insertionPossible_iff (s := { s with state := .tryAdd }) h.dist h.core.pcd h.core.pc
      h.pcds h.pcs ps).mp hp)), Act.run_pure]
  · unfold DM.rejectAdd
    refine (checkState_bind (st := .tryAdd) rfl _).trans ?_
    rw [setState_bind]
    rw [removeExcess_ok o dbg (s := { s with state := .waiting }) (FA := s.cd.ops) (FB := s.c.ops) (RA := []) (RB := [])
      (by simp) (by simp) (by rw [h.core.lcd, h.core.lc]) rfl (h.core.inv.1.trans h.core.lcd.symm) h.core.pcd]
    simp only [cutSide_nil]
    have e : ({ s with state := .waiting } : DM K Cd Co T) = s := by
      have := h.st
      cases s
      simp only at this
      subst this
      rfl
    exact (congrArg _ e).trans (sanityCheck_ok h.sane)

/-- The side left after the last operators are gone. -/
theorem cut_ok {X : Type} {τ : X → T} {S : Side X T} {F R : List X} (e : S.ops = F ++ R) (h : PosOK τ S.ops S.pos)
    (hs : SetOK τ S.set F) : SideOK τ (cutSide τ S F R) := by
  rw [e] at h
  refine ⟨h.truncate, ?_⟩
  show SetOK τ (S.set.filter _) F
  rw [hs.filter_absent]
  · exact hs
  · have hn := h.nodup
    rw [List.map_append] at hn
    intro x hx hm
    exact (List.nodup_append.mp hn).2.2 _ (List.mem_map_of_mem hx) _ hm rfl

/-- Moving operators to the end and taking them away. -/
theorem moved_ok {t : DM K Cd Co T} {A R : Conf Cd Co} (hc : Core o t A.cds.length)
    (hs1 : SetOK o.tcd t.cd.set t.cd.ops) (hs2 : SetOK o.tc t.c.set t.c.ops) (p1 : t.cd.ops.Perm A.cds)
    (p2 : t.c.ops.Perm A.cs) {rem : List (Cd × Co)} (h1 : A.cds.Perm (R.cds ++ rem.map Prod.fst))
    (h2 : A.cs.Perm (R.cs ++ rem.map Prod.snd)) (hd : A.Distinct o) :
    ∃ (ps : List (Cd × Co)) (S : Side Cd T) (S' : Side Co T) (X : DMat K) (p : ℤ) (FA : List Cd) (FB : List Co),
      DM.moveToEnd o A.cds.length rem t =
        (.ok (), { t with cd := S, c := S', inv := X, perm := p, removed := ps.reverse }) ∧
      Core o { t with cd := S, c := S', inv := X, perm := p, removed := ps.reverse } A.cds.length ∧
      S.ops = FA ++ ps.map Prod.fst ∧ S'.ops = FB ++ ps.map Prod.snd ∧ ps.length = rem.length ∧
      SetOK o.tcd S.set FA ∧ SetOK o.tc S'.set FB ∧ S.ops.Perm A.cds ∧ S'.ops.Perm A.cs ∧
      FA.Perm R.cds ∧ FB.Perm R.cs ∧
      DM.removeLast o (rem.length : ℤ) { t with cd := S, c := S', inv := X, perm := p, removed := ps.reverse } =
        (.ok (orderSign o.tcd S.ops * orderSign o.tc S'.ops * (orderSign o.tcd FA * orderSign o.tc FB)),
          { t with
            cd := cutSide o.tcd S FA (ps.map Prod.fst), c := cutSide o.tc S' FB (ps.map Prod.snd),
            inv := X, perm := p, removed := ps.reverse }) := by
  have hr : ∀ p ∈ rem, p.1 ∈ t.cd.ops ∧ p.2 ∈ t.c.ops := by
    intro p hp
    refine ⟨(p1.trans h1).mem_iff.mpr ?_, (p2.trans h2).mem_iff.mpr ?_⟩
    · exact List.mem_append_right _ (List.mem_map_of_mem hp)
    · exact List.mem_append_right _ (List.mem_map_of_mem hp)
  have hn := List.nodup_append.mp hd
  have n1 : ((rem.map Prod.fst).map o.tcd).Nodup := by
    have := hn.1
    rw [(h1.map _).nodup_iff, List.map_append] at this
    exact (List.nodup_append.mp this).2.1
  have n2 : ((rem.map Prod.snd).map o.tc).Nodup := by
    have := hn.2.1
    rw [(h2.map _).nodup_iff, List.map_append] at this
    exact (List.nodup_append.mp this).2.1
  obtain ⟨FA, FB, RA, RB, S, S', X, p, e, c, o1, o2, q1, q2, s1, s2, r1, r2⟩ := moveToEnd_ok o hc hs1 hs2 rem hr n1 n2
  have l1 : RA.length = rem.length := by rw [q1.length_eq]; simp
  have l2 : RB.length = rem.length := by rw [q2.length_eq]; simp
  have m1 : (RA.zip RB).map Prod.fst = RA := by rw [List.map_fst_zip]; omega
  have m2 : (RA.zip RB).map Prod.snd = RB := by rw [List.map_snd_zip]; omega
  have l3 : (RA.zip RB).length = rem.length := by simp [l1, l2]
  have e' := removeLast_ok o (s := { t with cd := S, c := S', inv := X, perm := p, removed := (RA.zip RB).reverse })
    (RA.zip RB) (FA := FA) (FB := FB) (by rw [m1]; exact o1) (by rw [m2]; exact o2) c.pcd c.pc
  rw [l3] at e'
  refine ⟨RA.zip RB, S, S', X, p, FA, FB, e, c, by rw [m1, o1], by rw [m2, o2], l3, s1, s2, r1.trans p1, r2.trans p2, ?_, ?_, e'⟩
  · have := (r1.trans p1).trans h1
    rw [o1] at this
    exact (List.perm_append_right_iff _).mp (this.trans (q1.symm.append_left _))
  · have := (r2.trans p2).trans h2
    rw [o2] at this
    exact (List.perm_append_right_iff _).mp (this.trans (q2.symm.append_left _))

theorem Distinct.part {A R : Conf Cd Co} {l : List Cd} {l' : List Co} (hd : A.Distinct o) (h1 : A.cds.Perm (R.cds ++ l))
    (h2 : A.cs.Perm (R.cs ++ l')) : R.Distinct o := by
  have hn := List.nodup_append.mp hd
  have a := hn.1
  have b := hn.2.1
  rw [(h1.map _).nodup_iff, List.map_append] at a
  rw [(h2.map _).nodup_iff, List.map_append] at b
  refine List.nodup_append.mpr ⟨(List.nodup_append.mp a).1, (List.nodup_append.mp b).1, ?_⟩
  intro x hx y hy
  refine hn.2.2 x ((h1.map _).mem_iff.mpr ?_) y ((h2.map _).mem_iff.mpr ?_)
  · rw [List.map_append]; exact List.mem_append_left _ hx
  · rw [List.map_append]; exact List.mem_append_left _ hy

theorem removal_mem {A R : Conf Cd Co} {rem : List (Cd × Co)} (h1 : A.cds.Perm (R.cds ++ rem.map Prod.fst))
    (h2 : A.cs.Perm (R.cs ++ rem.map Prod.snd)) :
    (A.cds.map o.tcd ++ A.cs.map o.tc).Perm ((R.cds.map o.tcd ++ R.cs.map o.tc) ++ DM.pairTimes o rem) :=
  ((h1.map _).append (h2.map _)).trans (times_ext R rem)

/-- Removing pairs. -/
theorem trial_remove' (junk : ℕ → ℕ → K) {s : DM K Cd Co T} {A A' : Conf Cd Co} (h : Good o s A)
    {rem : List (Cd × Co)} (hrem : rem ≠ []) (h1 : A.cds.Perm (A'.cds ++ rem.map Prod.fst))
    (h2 : A.cs.Perm (A'.cs ++ rem.map Prod.snd)) :
    ∃ s1, DM.tryRemove o rem s = (.ok (A'.det o / A.det o), s1) ∧ s1.mode = s.mode ∧ s1.state = .tryRem ∧
    (A'.det o ≠ 0 → ∃ s2, DM.performRemove junk s1 = (.ok (), s2) ∧ s2.mode = s.mode ∧ Good o s2 A' ∧
      ∃ ps : List (Cd × Co), s2.removed = ps.reverse ∧ (A'.cds ++ ps.map Prod.fst).Perm A.cds ∧
        (A'.cs ++ ps.map Prod.snd).Perm A.cs) ∧
    ∃ s2, DM.rejectRemove o s1 = (.ok (), s2) ∧ s2.mode = s.mode ∧ Good o s2 A := by
  have hM : 0 < rem.length := List.length_pos_iff.mpr hrem
  obtain ⟨ps, S, S', X, p, FA, FB, e1, c1, o1, o2, lp, s1, s2, r1, r2, f1, f2, e2⟩ := moved_ok (o := o)
    (t := { s with state := .tryRem }) (R := A') (rem := rem) (h.core.frame rfl rfl rfl rfl) h.scd h.sc h.pcds h.pcs h1 h2 h.dist
  have hd' : A'.Distinct o := Distinct.part h.dist h1 h2
  have lA : A.cds.length = A'.cds.length + rem.length := by rw [h1.length_eq]; simp
  have lA2 : A.cs.length = A'.cs.length + rem.length := by rw [h2.length_eq]; simp
  have lA' : A'.cds.length = A'.cs.length := by have := h.len; omega
  have lFA : FA.length = A'.cds.length := f1.length_eq
  have lFB : FB.length = A'.cds.length := by rw [f2.length_eq, lA']
  obtain ⟨r, hr⟩ : ∃ r, r = orderSign o.tcd S.ops * orderSign o.tc S'.ops *
    (orderSign o.tcd FA * orderSign o.tc FB) := ⟨_, rfl⟩
  rw [← hr] at e2
  have iv : IsInvOf X (A'.cds.length + rem.length) (greenAt o.G S'.ops S.ops) := by rw [← lA]; exact c1.inv
  have e3 := C12_inc_detRatioDownLast hM iv
  have D0 : detN A'.cds.length (greenAt o.G S'.ops S.ops) = detN A'.cds.length (greenAt o.G FB FA) := by
    refine detN_congr' fun i hi j hj => ?_
    rw [o1, o2, greenAt_append_left (by omega) (by omega)]
  have det' := det_ordered o f2 f1 lA' hd'
  rw [lFA] at det'
  have det0 := det_ordered o r2 r1 h.len h.dist
  rw [r1.length_eq, lA] at det0
  have k1 := cut_ok o1 c1.pcd s1
  have k2 := cut_ok o2 c1.pc s2
  have ratio : (r : K) * (detN A'.cds.length (greenAt o.G S'.ops S.ops) /
      detN (A'.cds.length + rem.length) (greenAt o.G S'.ops S.ops)) = A'.det o / A.det o := by
    rw [hr, ratio_sign (sgn2_sq _ _ _ _), det', det0, D0]
    push_cast; rfl
  have tm := removal_mem (o := o) h1 h2
  have hposs : DM.removalPossible o { s with state := .tryRem } rem = .ok true := by
    unfold DM.removalPossible
    rw [Res.throwIf_false]
    · have : (DM.pairTimes o rem).Nodup := by
        have := h.dist
        unfold Conf.Distinct at this
        rw [tm.nodup_iff] at this
        exact (List.nodup_append.mp this).2.1
      simp [this, Res.pure_eq]
    · rw [not_not, pairTimes_mem (P := fun t => DM.Exist { s with state := .tryRem } t)]
      intro t ht
      rw [exist_iff (s := { s with state := .tryRem }) h.core.pcd h.core.pc h.pcds h.pcs, tm.mem_iff]
      exact List.mem_append_right _ ht
  refine ⟨{ s with
    state := .tryRem, cd := cutSide o.tcd S FA (ps.map Prod.fst), c := cutSide o.tc S' FB (ps.map Prod.snd),
    inv := X, perm := p, removed := ps.reverse, permRat := r }, ?_, rfl, rfl, ?_, ?_⟩
  · unfold DM.tryRemove
    rw [checkState_bind h.st, setState_bind, Act.get_bind, hposs, Act.lift_ok_bind, if_neg (by simp)]
    rw [h.core.inv.1, Act.bind_ok e1, Act.bind_ok e2, Act.modify_bind, Act.get_bind, e3, Act.lift_ok_bind, Act.run_pure,
      ratio]
  · intro hne
    have hD : detN A'.cds.length (greenAt o.G S'.ops S.ops) ≠ 0 := by
      intro hz; rw [det', ← D0, hz, mul_zero] at hne; exact hne rfl
    obtain ⟨Y, e4, iv'⟩ := C12_inc_inverseDownLast junk hM iv hD
    refine ⟨{ s with
      state := .waiting, cd := cutSide o.tcd S FA (ps.map Prod.fst), c := cutSide o.tc S' FB (ps.map Prod.snd),
      inv := Y, perm := p * r, removed := ps.reverse, permRat := r }, ?_, rfl, ?_, ps, rfl, ?_, ?_⟩
    · unfold DM.performRemove
      refine (checkState_bind (st := .tryRem) rfl _).trans ?_
      rw [setState_bind, Act.modify_bind, Act.get_bind, List.length_reverse, lp, e4, Act.lift_ok_bind]
      rfl
    · refine ⟨rfl, ⟨lFA, lFB, k1.pos, k2.pos, ?_, ?_⟩, k1.set, k2.set, f1, f2, hd'⟩
      · show p * r = orderSign o.tcd FA * orderSign o.tc FB
        rw [hr, show p = _ from c1.perm, ← mul_assoc, sgn2_sq, one_mul]
      · show IsInvOf Y _ (greenAt o.G FB FA)
        refine iv'.congr fun i hi j hj => ?_
        rw [o1, o2, greenAt_append_left (by omega) (by omega)]
    · exact (f1.symm.append_right _).trans (by rw [← o1]; exact r1)
    · exact (f2.symm.append_right _).trans (by rw [← o2]; exact r2)
  · have n1 : ((FA ++ ps.map Prod.fst).map o.tcd).Nodup := by rw [← o1]; exact c1.pcd.nodup
    have n2 : ((FB ++ ps.map Prod.snd).map o.tc).Nodup := by rw [← o2]; exact c1.pc.nodup
    obtain ⟨U, U', e4, u1, u2, v1, v2⟩ := addNew_ok o (s := { s with
      state := .waiting, cd := cutSide o.tcd S FA (ps.map Prod.fst), c := cutSide o.tc S' FB (ps.map Prod.snd),
      inv := X, perm := p, removed := ps.reverse, permRat := r }) ps k1 k2 (lFA.trans lFB.symm) n1 n2
    have w1 : U.ops = S.ops := u1.trans o1.symm
    have w2 : U'.ops = S'.ops := u2.trans o2.symm
    refine ⟨{ s with
      state := .waiting, cd := U, c := U', inv := X, perm := p, removed := ps.reverse, permRat := r }, ?_, rfl, ?_⟩
    · unfold DM.rejectRemove
      refine (checkState_bind (st := .tryRem) rfl _).trans ?_
      rw [setState_bind, Act.get_bind]
      simp only [List.reverse_reverse]
      rw [Act.bind_ok e4, Act.run_pure]
    · refine ⟨rfl, ⟨?_, ?_, v1.pos, v2.pos, ?_, ?_⟩, v1.set, v2.set, ?_, ?_, h.dist⟩
      · rw [w1]; exact c1.lcd
      · rw [w2]; exact c1.lc
      · rw [w1, w2]; exact c1.perm
      · rw [w1, w2]; exact c1.inv
      · rw [w1]; exact r1
      · rw [w2]; exact r2

/-- Removing pairs. -/
theorem trial_remove (junk : ℕ → ℕ → K) {s : DM K Cd Co T} {A A' : Conf Cd Co} (h : Good o s A)
    {rem : List (Cd × Co)} (hrem : rem ≠ []) (h1 : A.cds.Perm (A'.cds ++ rem.map Prod.fst))
    (h2 : A.cs.Perm (A'.cs ++ rem.map Prod.snd)) :
    Trial o .tryRem (DM.tryRemove o rem) (DM.performRemove junk) (DM.rejectRemove o) s A A' := by
  obtain ⟨s1, e1, e2, e3, e4, e5⟩ := trial_remove' junk h hrem h1 h2
  refine ⟨s1, e1, e2, e3, fun hne => ?_, e5⟩
  obtain ⟨s2, a, b, c, -⟩ := e4 hne
  exact ⟨s2, a, b, c⟩

end CTInt
