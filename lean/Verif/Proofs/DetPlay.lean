import Verif.Proofs.DetTrial2
import Verif.Proofs.DetTrial3

/-!
# `try_update`, `perform_update`, `reject_update` and histories (helper lemmas for C24, C25)
-/

set_option linter.all false

namespace CTInt

variable {K Cd Co T : Type} [Field K] [DecidableEq K] [LinearOrder T] {o : OpSys K Cd Co T}

theorem setMode_bind {β : Type} {m : DMode} {s : DM K Cd Co T} (f : Unit → Act (DM K Cd Co T) β) :
    (DM.setMode m >>= f) s = f () { s with mode := some m } := rfl

theorem pairs_ok {a : List Cd} {b : List Co} {n : ℕ} (h1 : a.length = n) (h2 : b.length = n) :
    DM.pairs a b n = .ok (a.zip b) := by
  unfold DM.pairs
  rw [Res.assert_true ⟨by omega, by omega⟩, Res.bind_ok, List.take_of_length_le (by omega), List.take_of_length_le (by omega)]
  rfl

theorem zip_fst {a : List Cd} {b : List Co} (h : a.length = b.length) : (a.zip b).map Prod.fst = a := by
  rw [List.map_fst_zip]; omega

theorem zip_snd {a : List Cd} {b : List Co} (h : a.length = b.length) : (a.zip b).map Prod.snd = b := by
  rw [List.map_snd_zip]; omega

theorem zip_ne {a : List Cd} {b : List Co} (h : a.length = b.length) (ha : a ≠ []) : a.zip b ≠ [] := by
  intro hz
  have := congrArg List.length hz
  have h' := List.length_pos_iff.mpr ha
  simp only [List.length_zip, List.length_nil] at this
  omega

variable (o)

/-- One trial through the dispatching functions. -/
def UTrial (dbg : Bool) (junk : ℕ → ℕ → K) (ch : Change Cd Co) (s : DM K Cd Co T) (A A' : Conf Cd Co) : Prop :=
  ∃ s1, DM.tryUpdate o dbg junk ch s = (.ok (A'.det o / A.det o), s1) ∧
    (A'.det o ≠ 0 → ∃ s2, DM.performUpdate o dbg junk s1 = (.ok (), s2) ∧ Good o s2 A') ∧
    ∃ s2, DM.rejectUpdate o dbg s1 = (.ok (), s2) ∧ Good o s2 A

variable {o}

theorem Good.setMode {s : DM K Cd Co T} {A : Conf Cd Co} (h : Good o s A) (m : Option DMode) :
    Good o { s with mode := m } A := h.frame h.st rfl rfl rfl rfl

theorem Good.det_ne {s : DM K Cd Co T} {A : Conf Cd Co} (h : Good o s A) : A.det o ≠ 0 := by
  rw [h.det_eq, h.core.perm]
  refine mul_ne_zero ?_ h.core.inv.det_ne_zero
  push_cast
  exact sgn2_ne _ _ _ _

theorem tryUpdate_cons (dbg : Bool) (junk : ℕ → ℕ → K) {s : DM K Cd Co T} (hs : s.state = .waiting) (ch : Change Cd Co)
    {A A' : Conf Cd Co} {m : DMode} {st : DState} {t : Act (DM K Cd Co T) K} {pf rj : Act (DM K Cd Co T) Unit}
    (h1 : DM.tryUpdate o dbg junk ch s = t { s with mode := some m })
    (h2 : ∀ s', s'.mode = some m → DM.performUpdate o dbg junk s' = pf s')
    (h3 : ∀ s', s'.mode = some m → DM.rejectUpdate o dbg s' = rj s')
    (h : Trial o st t pf rj { s with mode := some m } A A') : UTrial o dbg junk ch s A A' := by
  obtain ⟨s1, e1, e2, -, e3, s3, e4, -, e5⟩ := h
  have e2 : s1.mode = some m := e2
  refine ⟨s1, by rw [h1, e1], ?_, s3, by rw [h3 s1 e2, e4], e5⟩
  intro hne
  obtain ⟨s2, e6, -, e7⟩ := e3 hne
  exact ⟨s2, by rw [h2 s1 e2, e6], e7⟩

/-- `perform_update` by mode. -/
noncomputable def performBy (o : OpSys K Cd Co T) (dbg : Bool) (junk : ℕ → ℕ → K) : DMode → Act (DM K Cd Co T) Unit
  | .doNothing => pure ()
  | .replaceCd => DM.performReplaceCd o
  | .replaceC => DM.performReplaceC o
  | .add => DM.performAdd junk
  | .rem => DM.performRemove junk
  | .remAdd => DM.performRemoveAdd o dbg junk
  | .invalid => pure ()

/-- `reject_update` by mode. -/
noncomputable def rejectBy (o : OpSys K Cd Co T) (dbg : Bool) : DMode → Act (DM K Cd Co T) Unit
  | .doNothing => pure ()
  | .replaceCd => DM.rejectReplaceCd
  | .replaceC => DM.rejectReplaceC
  | .add => DM.rejectAdd o dbg
  | .rem => DM.rejectRemove o
  | .remAdd => DM.rejectRemoveAdd o dbg
  | .invalid => pure ()

theorem perform_mode (dbg : Bool) (junk : ℕ → ℕ → K) {s : DM K Cd Co T} {m : DMode} (h : s.mode = some m) :
    DM.performUpdate o dbg junk s = performBy o dbg junk m s := by
  unfold DM.performUpdate
  rw [Act.get_bind, h]
  cases m <;> rfl

theorem reject_mode (dbg : Bool) {s : DM K Cd Co T} {m : DMode} (h : s.mode = some m) :
    DM.rejectUpdate o dbg s = rejectBy o dbg m s := by
  unfold DM.rejectUpdate
  rw [Act.get_bind, h]
  cases m <;> rfl

section dispatch
variable (dbg : Bool) (junk : ℕ → ℕ → K) {s : DM K Cd Co T} (hs : Sane o s)
include hs

theorem tryUpdate_uneven {ch : Change Cd Co} (h : ch.Uneven) :
    DM.tryUpdate o dbg junk ch s = (.ok 0, { s with mode := some .invalid }) := by
  unfold DM.tryUpdate
  unfold Change.Uneven at h
  rw [Act.bind_ok (sanityCheck_ok hs), if_pos (by omega)]
  rfl

theorem tryUpdate_nothing {ch : Change Cd Co} (h1 : ch.remCd = []) (h2 : ch.remC = []) (h3 : ch.addCd = [])
    (h4 : ch.addC = []) : DM.tryUpdate o dbg junk ch s = (.ok 1, { s with mode := some .doNothing }) := by
  unfold DM.tryUpdate
  rw [Act.bind_ok (sanityCheck_ok hs)]
  rw [h1, h2, h3, h4]
  simp only [List.length_nil]
  rw [if_neg (by simp), if_pos (by simp)]
  rfl

theorem tryUpdate_replaceCd {a b : Cd} :
    DM.tryUpdate o dbg junk ⟨[a], [], [b], []⟩ s = DM.tryReplaceCd o a b { s with mode := some .replaceCd } := by
  unfold DM.tryUpdate
  rw [Act.bind_ok (sanityCheck_ok hs)]
  simp only [List.length_nil, List.length_singleton]
  rw [if_neg (by simp), if_neg (by simp), if_pos (by simp), setMode_bind]
  rfl

theorem tryUpdate_replaceC {a b : Co} :
    DM.tryUpdate o dbg junk ⟨[], [a], [], [b]⟩ s = DM.tryReplaceC o a b { s with mode := some .replaceC } := by
  unfold DM.tryUpdate
  rw [Act.bind_ok (sanityCheck_ok hs)]
  simp only [List.length_nil, List.length_singleton]
  rw [if_neg (by simp), if_neg (by simp), if_neg (by simp), if_pos (by simp), setMode_bind]
  rfl

theorem tryUpdate_add {ch : Change Cd Co} (h1 : ch.remCd = []) (h2 : ch.remC = []) (hl : ch.addCd.length = ch.addC.length)
    (h3 : ch.addCd ≠ []) :
    DM.tryUpdate o dbg junk ch s = DM.tryAdd o (ch.addCd.zip ch.addC) { s with mode := some .add } := by
  have := List.length_pos_iff.mpr h3
  unfold DM.tryUpdate
  rw [Act.bind_ok (sanityCheck_ok hs)]
  have z1 := congrArg List.length h1
  have z2 := congrArg List.length h2
  simp only [List.length_nil] at z1 z2
  rw [if_neg (by omega), if_neg (by omega), if_neg (by omega), if_neg (by omega), if_pos (by omega), setMode_bind,
    pairs_ok rfl hl.symm, Act.lift_ok_bind]

theorem tryUpdate_rem {ch : Change Cd Co} (h1 : ch.addCd = []) (h2 : ch.addC = []) (hl : ch.remCd.length = ch.remC.length)
    (h3 : ch.remCd ≠ []) :
    DM.tryUpdate o dbg junk ch s = DM.tryRemove o (ch.remCd.zip ch.remC) { s with mode := some .rem } := by
  have := List.length_pos_iff.mpr h3
  unfold DM.tryUpdate
  rw [Act.bind_ok (sanityCheck_ok hs)]
  have z1 := congrArg List.length h1
  have z2 := congrArg List.length h2
  simp only [List.length_nil] at z1 z2
  rw [if_neg (by omega), if_neg (by omega), if_neg (by omega), if_neg (by omega), if_neg (by omega), if_pos (by omega),
    setMode_bind, pairs_ok rfl hl.symm, Act.lift_ok_bind]

theorem tryUpdate_remAdd {ch : Change Cd Co} (hl : ch.remCd.length = ch.remC.length) (hl' : ch.addCd.length = ch.addC.length)
    (h1 : ch.remCd ≠ []) (h2 : ch.addCd ≠ []) :
    DM.tryUpdate o dbg junk ch s =
      DM.tryRemoveAdd o junk (ch.remCd.zip ch.remC) (ch.addCd.zip ch.addC) { s with mode := some .remAdd } := by
  have := List.length_pos_iff.mpr h1
  have := List.length_pos_iff.mpr h2
  unfold DM.tryUpdate
  rw [Act.bind_ok (sanityCheck_ok hs)]
  rw [if_neg (by omega), if_neg (by omega), if_neg (by omega), if_neg (by omega), if_neg (by omega), if_neg (by omega),
    setMode_bind, pairs_ok rfl hl'.symm, Act.lift_ok_bind, pairs_ok rfl hl.symm, Act.lift_ok_bind]

end dispatch

theorem update_ok (dbg : Bool) (junk : ℕ → ℕ → K) {s : DM K Cd Co T} {A A' : Conf Cd Co} (h : Good o s A)
    {ch : Change Cd Co} (hv : Valid o A ch A') : UTrial o dbg junk ch s A A' := by
  obtain ⟨reg, ⟨R, tk, hpiv⟩, hd⟩ := hv
  rcases reg with ⟨l1, l2⟩ | ⟨l1, l2, l3, l4⟩ | ⟨l1, l2, l3, l4⟩
  · by_cases hr : ch.remCd = []
    · have hr' : ch.remC = [] := by rw [← List.length_eq_zero_iff, ← l1, hr]; rfl
      have p1 : A.cds.Perm R.cds := by have := tk.oldCds; rwa [hr, List.append_nil] at this
      have p2 : A.cs.Perm R.cs := by have := tk.oldCs; rwa [hr', List.append_nil] at this
      by_cases ha : ch.addCd = []
      · have ha' : ch.addC = [] := by rw [← List.length_eq_zero_iff, ← l2, ha]; rfl
        have q1 : A'.cds.Perm R.cds := by have := tk.newCds; rwa [ha, List.append_nil] at this
        have q2 : A'.cs.Perm R.cs := by have := tk.newCs; rwa [ha', List.append_nil] at this
        have same : A.Same A' := ⟨p1.trans q1.symm, p2.trans q2.symm⟩
        have hdet : A'.det o / A.det o = 1 := by
          rw [← Conf.det_same o same h.dist, div_self h.det_ne]
        refine ⟨{ s with mode := some .doNothing }, ?_, ?_, { s with mode := some .doNothing }, ?_, h.setMode _⟩
        · rw [tryUpdate_nothing dbg junk h.sane hr hr' ha ha', hdet]
        · intro _
          exact ⟨{ s with mode := some .doNothing }, rfl, (h.setMode _).same same⟩
        · rfl
      · refine tryUpdate_cons (st := .tryAdd) dbg junk h.st ch (tryUpdate_add dbg junk h.sane hr hr' l2 ha)
          (fun s' hs' => perform_mode dbg junk hs') (fun s' hs' => reject_mode dbg hs') ?_
        refine trial_add dbg junk (h.setMode _) (zip_ne l2 ha) ?_ ?_ hd
        · rw [zip_fst l2]; exact tk.newCds.trans (p1.symm.append_right _)
        · rw [zip_snd l2]; exact tk.newCs.trans (p2.symm.append_right _)
    · by_cases ha : ch.addCd = []
      · have ha' : ch.addC = [] := by rw [← List.length_eq_zero_iff, ← l2, ha]; rfl
        have q1 : A'.cds.Perm R.cds := by have := tk.newCds; rwa [ha, List.append_nil] at this
        have q2 : A'.cs.Perm R.cs := by have := tk.newCs; rwa [ha', List.append_nil] at this
        refine tryUpdate_cons (st := .tryRem) dbg junk h.st ch (tryUpdate_rem dbg junk h.sane ha ha' l1 hr)
          (fun s' hs' => perform_mode dbg junk hs') (fun s' hs' => reject_mode dbg hs') ?_
        refine trial_remove junk (h.setMode _) (zip_ne l1 hr) ?_ ?_
        · rw [zip_fst l1]; exact tk.oldCds.trans (q1.symm.append_right _)
        · rw [zip_snd l1]; exact tk.oldCs.trans (q2.symm.append_right _)
      · refine tryUpdate_cons (st := .tryRemAdd) dbg junk h.st ch (tryUpdate_remAdd dbg junk h.sane l1 l2 hr ha)
          (fun s' hs' => perform_mode dbg junk hs') (fun s' hs' => reject_mode dbg hs') ?_
        have hr' : ch.remC ≠ [] := by
          intro hz; rw [hz, List.length_nil] at l1; exact hr (List.length_eq_zero_iff.mp l1)
        have ha' : ch.addC ≠ [] := by
          intro hz; rw [hz, List.length_nil] at l2; exact ha (List.length_eq_zero_iff.mp l2)
        refine trial_remAdd dbg junk (R := R) (h.setMode _) (zip_ne l1 hr) ?_ ?_ ?_ ?_ hd (hpiv ⟨hr, hr', ha, ha'⟩)
        · rw [zip_fst l1]; exact tk.oldCds
        · rw [zip_snd l1]; exact tk.oldCs
        · rw [zip_fst l2]; exact tk.newCds
        · rw [zip_snd l2]; exact tk.newCs
  · obtain ⟨a, ha⟩ := List.length_eq_one_iff.mp l1
    obtain ⟨b, hb⟩ := List.length_eq_one_iff.mp l2
    obtain ⟨_, _, _, _⟩ := ch
    simp only at ha hb l3 l4
    subst ha hb l3 l4
    refine tryUpdate_cons (st := .tryReplaceCd) dbg junk h.st _ (tryUpdate_replaceCd dbg junk h.sane)
      (fun s' hs' => perform_mode dbg junk hs') (fun s' hs' => reject_mode dbg hs') ?_
    have p2 : A.cs.Perm R.cs := by have := tk.oldCs; rwa [List.append_nil] at this
    have q2 : A'.cs.Perm R.cs := by have := tk.newCs; rwa [List.append_nil] at this
    exact trial_replaceCd (h.setMode _) tk.oldCds tk.newCds (q2.trans p2.symm) hd
  · obtain ⟨a, ha⟩ := List.length_eq_one_iff.mp l1
    obtain ⟨b, hb⟩ := List.length_eq_one_iff.mp l2
    obtain ⟨_, _, _, _⟩ := ch
    simp only at ha hb l3 l4
    subst ha hb l3 l4
    refine tryUpdate_cons (st := .tryReplaceC) dbg junk h.st _ (tryUpdate_replaceC dbg junk h.sane)
      (fun s' hs' => perform_mode dbg junk hs') (fun s' hs' => reject_mode dbg hs') ?_
    have p2 : A.cds.Perm R.cds := by have := tk.oldCds; rwa [List.append_nil] at this
    have q2 : A'.cds.Perm R.cds := by have := tk.newCds; rwa [List.append_nil] at this
    exact trial_replaceC (h.setMode _) tk.oldCs tk.newCs (q2.trans p2.symm) hd

theorem clash_ok (dbg : Bool) (junk : ℕ → ℕ → K) {s : DM K Cd Co T} {A : Conf Cd Co} (h : Good o s A)
    {ch : Change Cd Co} (hc : Clash o A ch) :
    ∃ s1 s2, DM.tryUpdate o dbg junk ch s = (.ok 0, s1) ∧ DM.rejectUpdate o dbg s1 = (.ok (), s2) ∧ Good o s2 A := by
  obtain ⟨h1, h2, h3, h4⟩ := hc
  have ha : ch.addCd ≠ [] := by
    intro hz
    have hz' : ch.addC = [] := by rw [← List.length_eq_zero_iff, ← h3, hz]; rfl
    rw [hz, hz', List.append_nil, List.append_nil] at h4
    exact h4 h.dist
  obtain ⟨s1, e1, e2, e3⟩ := trial_clash dbg (s := { s with mode := some .add }) (h.setMode _)
    (ps := ch.addCd.zip ch.addC) (by rw [zip_fst h3, zip_snd h3]; exact h4)
  have e2 : s1.mode = some .add := e2
  refine ⟨s1, _, by rw [tryUpdate_add dbg junk h.sane h1 h2 h3 ha]; exact e1, ?_, h.setMode (some .add)⟩
  rw [reject_mode dbg e2]; exact e3

theorem singular_ok (dbg : Bool) (junk : ℕ → ℕ → K) {s : DM K Cd Co T} {A A' : Conf Cd Co} (h : Good o s A)
    {ch : Change Cd Co} (hc : Singular o A ch A') :
    ∃ s1 s2, DM.tryUpdate o dbg junk ch s = (.ok 0, s1) ∧ DM.rejectUpdate o dbg s1 = (.ok (), s2) ∧ Good o s2 A := by
  obtain ⟨⟨l1, l2⟩, ⟨m1, m2, m3, m4⟩, ⟨R, tk, hR⟩, hd⟩ := hc
  obtain ⟨s1, r, e1, e2, e3, e4, e5, s2, e6, e7, e8⟩ := trial_remAdd' (rem := ch.remCd.zip ch.remC)
    (add := ch.addCd.zip ch.addC) (R := R) (A' := A') dbg junk (h.setMode (some .remAdd)) (zip_ne l1 m1)
    (by rw [zip_fst l1]; exact tk.oldCds) (by rw [zip_snd l1]; exact tk.oldCs) (by rw [zip_fst l2]; exact tk.newCds)
    (by rw [zip_snd l2]; exact tk.newCs) hd
  rw [if_pos hR] at e2
  subst e2
  have e3 : s1.mode = some .remAdd := e3
  refine ⟨s1, s2, by rw [tryUpdate_remAdd dbg junk h.sane l1 l2 m1 m3]; exact e1, ?_, e8⟩
  rw [reject_mode dbg e3]; exact e6

theorem uneven_ok (dbg : Bool) (junk : ℕ → ℕ → K) {s : DM K Cd Co T} {A : Conf Cd Co} (h : Good o s A)
    {ch : Change Cd Co} (hc : ch.Uneven) :
    ∃ s1, DM.tryUpdate o dbg junk ch s = (.ok 0, s1) ∧ DM.rejectUpdate o dbg s1 = (.ok (), s1) ∧
      DM.performUpdate o dbg junk s1 = (.ok (), s1) ∧ Good o s1 A :=
  ⟨_, tryUpdate_uneven dbg junk h.sane hc, rfl, rfl, h.setMode _⟩

/-- A whole history. -/
theorem play_ok (dbg : Bool) (junk : ℕ → ℕ → K) {A A' : Conf Cd Co} {l : List (Change Cd Co × Bool)} {rs : List K}
    (hh : History o A l rs A') : ∀ s : DM K Cd Co T, Good o s A → ∃ s', play o dbg junk l s = (.ok rs, s') ∧ Good o s' A' := by
  induction hh with
  | done A A' hs => exact fun s h => ⟨s, rfl, h.same hs⟩
  | accept A ch A' l rs A'' hv hne hh ih =>
    intro s h
    obtain ⟨s1, e1, e2, -⟩ := update_ok dbg junk h hv
    obtain ⟨s2, e3, g⟩ := e2 hne
    obtain ⟨s3, e4, g'⟩ := ih s2 g
    refine ⟨s3, ?_, g'⟩
    unfold play
    rw [Act.bind_ok e1, if_pos rfl, Act.bind_ok e3]
    exact Act.bind_ok e4
  | reject A ch A' l rs A'' hv hh ih =>
    intro s h
    obtain ⟨s1, e1, -, s2, e3, g⟩ := update_ok dbg junk h hv
    obtain ⟨s3, e4, g'⟩ := ih s2 g
    refine ⟨s3, ?_, g'⟩
    unfold play
    rw [Act.bind_ok e1, if_neg (by simp), Act.bind_ok e3]
    exact Act.bind_ok e4
  | clash A ch l rs A'' hc hh ih =>
    intro s h
    obtain ⟨s1, s2, e1, e3, g⟩ := clash_ok dbg junk h hc
    obtain ⟨s3, e4, g'⟩ := ih s2 g
    refine ⟨s3, ?_, g'⟩
    unfold play
    rw [Act.bind_ok e1, if_neg (by simp), Act.bind_ok e3]
    exact Act.bind_ok e4
  | singular A ch A' l rs A'' hc hh ih =>
    intro s h
    obtain ⟨s1, s2, e1, e3, g⟩ := singular_ok dbg junk h hc
    obtain ⟨s3, e4, g'⟩ := ih s2 g
    refine ⟨s3, ?_, g'⟩
    unfold play
    rw [Act.bind_ok e1, if_neg (by simp), Act.bind_ok e3]
    exact Act.bind_ok e4
  | uneven A ch b l rs A'' hc hh ih =>
    intro s h
    obtain ⟨s1, e1, e2, e3, g⟩ := uneven_ok dbg junk h hc
    obtain ⟨s3, e4, g'⟩ := ih s1 g
    refine ⟨s3, ?_, g'⟩
    unfold play
    cases b with
    | true => rw [Act.bind_ok e1, if_pos rfl, Act.bind_ok e3]; exact Act.bind_ok e4
    | false => rw [Act.bind_ok e1, if_neg (by simp), Act.bind_ok e2]; exact Act.bind_ok e4

/-- The constructor. -/
theorem create_good (j : DM K Cd Co T) : Good o (DM.create j) ⟨[], []⟩ := by
  refine ⟨rfl, ⟨rfl, rfl, PosOK.nil, PosOK.nil, ?_, ?_⟩, SetOK.nil, SetOK.nil, .refl _, .refl _, ?_⟩
  · show (1 : ℤ) = _; simp [DM.create, orderSign, outOfOrder]
  · exact ⟨rfl, rfl, toM_zero_mul_eq_one _ _⟩
  · exact List.nodup_nil

theorem Good.shows {s : DM K Cd Co T} {A : Conf Cd Co} (h : Good o s A) : ShowsConf o s A := by
  refine ⟨?_, ?_, h.pcds, h.pcs, ?_, h.core.perm, h.core.inv⟩
  · rw [h.scd.eq_byTime]; exact byTime_congr h.pcds h.scd.nodup
  · rw [h.sc.eq_byTime]; exact byTime_congr h.pcs h.sc.nodup
  · unfold DM.computeDeterminant
    rw [h.core.inv.det_mul, h.det_eq, one_div, div_inv_eq_mul]

theorem Reached.good {dbg : Bool} {junk : ℕ → ℕ → K} {j s : DM K Cd Co T} {A : Conf Cd Co}
    (h : Reached o dbg junk j A s) : Good o s A := by
  obtain ⟨l, rs, hh, e⟩ := h
  obtain ⟨s', e', g⟩ := play_ok dbg junk hh (DM.create j) (create_good j)
  rw [e] at e'
  rw [(Prod.mk.inj e').2]; exact g

end CTInt
