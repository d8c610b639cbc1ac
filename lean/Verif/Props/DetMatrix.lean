import Verif.Proofs.DetProto
import Mathlib.Tactic.NormNum
import Mathlib.LinearAlgebra.Matrix.Determinant.Basic

/-!
# C24, C25, C26: the determinant matrix
-/

set_option linter.all false

namespace CTInt

variable {K Cd Co T : Type} [Field K] [DecidableEq K] [LinearOrder T] {o : OpSys K Cd Co T}

/-! ## C24: ratios, determinant and sign over all histories -/

/-- C24 from the empty object: in every history of insertions, removals, replacements and combined changes, accepted or
    rejected, each reported ratio is the ratio of the time-ordered determinants, and at the end the object shows the
    operators, the time-ordered determinant and the sign of the time ordering.
    Partial: a combined change is exact only if what stays has an invertible matrix (`Valid`), and several operators of
    one kind cannot be replaced at once (`Change.Regular`); see the three violations below. -/
theorem C24_histories_partial (dbg : Bool) (junk : ℕ → ℕ → K) (j : DM K Cd Co T) {l : List (Change Cd Co × Bool)} {rs : List K}
    {A : Conf Cd Co} (h : History o ⟨[], []⟩ l rs A) :
    ∃ s, play o dbg junk l (DM.create j) = (.ok rs, s) ∧ ShowsConf o s A := by
  obtain ⟨s, e, g⟩ := play_ok dbg junk h (DM.create j) (create_good j)
  exact ⟨s, e, g.shows⟩

theorem createWith_good (junk : ℕ → ℕ → K) (j : DM K Cd Co T) {ps : List (Cd × Co)} (hps : ps ≠ [])
    (hd : (Conf.mk (ps.map Prod.fst) (ps.map Prod.snd)).Distinct o)
    (hne : (Conf.mk (ps.map Prod.fst) (ps.map Prod.snd)).det o ≠ 0) :
    ∃ s, DM.createWith o junk j ps = (.ok (), s) ∧ Good o s ⟨ps.map Prod.fst, ps.map Prod.snd⟩ := by
  obtain ⟨s1, e1, -, -, e2, -⟩ := trial_add (o := o) false junk (create_good (o := o) j) hps
    (A' := ⟨ps.map Prod.fst, ps.map Prod.snd⟩) (.refl _) (.refl _) hd
  obtain ⟨s2, e3, -, g⟩ := e2 hne
  refine ⟨s2, ?_, g⟩
  unfold DM.createWith
  rw [Act.bind_ok e1]
  exact e3

/-- C24 from a list of operators with invertible matrix. -/
theorem C24_from_list_partial (dbg : Bool) (junk : ℕ → ℕ → K) (j : DM K Cd Co T) {ps : List (Cd × Co)} (hps : ps ≠ [])
    (hd : (Conf.mk (ps.map Prod.fst) (ps.map Prod.snd)).Distinct o)
    (hne : (Conf.mk (ps.map Prod.fst) (ps.map Prod.snd)).det o ≠ 0) {l : List (Change Cd Co × Bool)} {rs : List K}
    {A : Conf Cd Co} (h : History o ⟨ps.map Prod.fst, ps.map Prod.snd⟩ l rs A) :
    ∃ s s', DM.createWith o junk j ps = (.ok (), s) ∧ ShowsConf o s ⟨ps.map Prod.fst, ps.map Prod.snd⟩ ∧
      play o dbg junk l s = (.ok rs, s') ∧ ShowsConf o s' A := by
  obtain ⟨s, e, g⟩ := createWith_good junk j hps hd hne
  obtain ⟨s', e', g'⟩ := play_ok dbg junk h s g
  exact ⟨s, s', e, g.shows, e', g'.shows⟩

theorem rebuild_good (dbg : Bool) {s : DM K Cd Co T} {A : Conf Cd Co} (h : Good o s A) :
    ∃ s', DM.rebuild o dbg s = (.ok (), s') ∧ Good o s' A ∧ s'.cd = s.cd ∧ s'.c = s.c := by
  have hn := h.core.lcd
  have hm := h.core.lc
  obtain ⟨g, hg⟩ : ∃ g : DMat K, g = ⟨s.cd.ops.length, s.cd.ops.length, fun i j => entry o.G s.c.ops s.cd.ops (0 + i) (0 + j)⟩ :=
    ⟨_, rfl⟩
  have e1 : DM.computeG o s = (.ok g, s) := by
    unfold DM.computeG
    rw [checkState_bind h.st, Act.get_bind, Act.assert_pos (by rw [h.core.inv.1, hn]), DM.gBlock,
      Res.assert_true (by right; right; omega), Res.bind_ok, hg]
    rfl
  suffices gd : Good o { s with inv := g.inv } A by
    refine ⟨{ s with inv := g.inv }, ?_, gd, rfl, rfl⟩
    unfold DM.rebuild
    rw [Act.bind_ok e1, Act.modify_bind]
    exact sanityCheck_ok gd.sane
  · have hr : g.rows = A.cds.length := by rw [hg]; exact hn
    have hc : g.cols = A.cds.length := by rw [hg]; exact hn
    have hgm : g.mat A.cds.length A.cds.length = toM A.cds.length A.cds.length (greenAt o.G s.c.ops s.cd.ops) := by
      ext i k
      rw [hg]
      have hi : (i : ℕ) < s.c.ops.length := by rw [hm]; exact i.2
      have hk : (k : ℕ) < s.cd.ops.length := by rw [hn]; exact k.2
      simp [DMat.mat, toM, entry, greenAt, hi, hk]
    have hdet := h.core.inv.det_ne_zero
    refine ⟨h.st, ⟨hn, hm, h.core.pcd, h.core.pc, h.core.perm, ?_, ?_, ?_⟩, h.scd, h.sc, h.pcds, h.pcs, h.dist⟩
    · first | exact hr | exact hc
    · first | exact hr | exact hc
    · have e := DMat.mat_inv (A := g) hr
      have e' : toM A.cds.length A.cds.length g.inv.val = (g.mat A.cds.length A.cds.length)⁻¹ := e
      show toM A.cds.length A.cds.length g.inv.val * _ = 1
      rw [e', hgm]
      exact Matrix.nonsing_inv_mul _ (isUnit_iff_ne_zero.mpr hdet)

/-- `rebuild_inverse_matrix` changes nothing a client can see. -/
theorem C24_rebuild (dbg : Bool) (junk : ℕ → ℕ → K) {j s : DM K Cd Co T} {A : Conf Cd Co} (h : Reached o dbg junk j A s) :
    ∃ s', DM.rebuild o dbg s = (.ok (), s') ∧ ShowsConf o s A ∧ ShowsConf o s' A := by
  obtain ⟨s', e, g, -⟩ := rebuild_good dbg h.good
  exact ⟨s', e, h.good.shows, g.shows⟩

/-- Violation of C24: two or more annihilation operators are to be replaced.  The trial reports 1 and performing it changes
    nothing, whatever the ratio of the determinants is. -/
theorem C24_replace_many_violation (dbg : Bool) (junk : ℕ → ℕ → K) {j s : DM K Cd Co T} {A R A' : Conf Cd Co}
    (h : Reached o dbg junk j A s) {ch : Change Cd Co} (ht : Takes A ch R A') (h1 : ch.remCd = []) (h2 : ch.addCd = [])
    (h3 : ch.remC.length = ch.addC.length) (h4 : 2 ≤ ch.remC.length) (hs : ¬ A.Same A') (hr : A'.det o / A.det o ≠ 1) :
    ∃ s1 s2, DM.tryUpdate o dbg junk ch s = (.ok 1, s1) ∧ (1 : K) ≠ A'.det o / A.det o ∧
      DM.performUpdate o dbg junk s1 = (.ok (), s2) ∧ ShowsConf o s2 A ∧ ¬ A.Same A' := by
  obtain ⟨s1, s2, e1, e2, g⟩ := replaceMany_ok dbg junk h.good h1 h2 h3 h4
  exact ⟨s1, s2, e1, Ne.symm hr, e2, g.shows, hs⟩

/-- Violation of C24: a change that removes and adds pairs, where what stays has a singular matrix, is reported with ratio
    0 although the new configuration has a determinant. -/
theorem C24_singular_rest_violation (dbg : Bool) (junk : ℕ → ℕ → K) {j s : DM K Cd Co T} {A A' : Conf Cd Co}
    (h : Reached o dbg junk j A s) {ch : Change Cd Co} (hc : Singular o A ch A') (hne : A'.det o ≠ 0) :
    ∃ s1, DM.tryUpdate o dbg junk ch s = (.ok 0, s1) ∧ A'.det o / A.det o ≠ 0 := by
  obtain ⟨s1, s2, e1, -⟩ := singular_ok dbg junk h.good hc
  exact ⟨s1, e1, div_ne_zero hne h.good.det_ne⟩

/-- Violation of C24: more creation than annihilation operators are exchanged (for example two creation operators are
    replaced): the list of annihilation operators is read past its end. -/
theorem C24_past_end_violation (dbg : Bool) (junk : ℕ → ℕ → K) {j s : DM K Cd Co T} {A : Conf Cd Co}
    (h : Reached o dbg junk j A s) {ch : Change Cd Co}
    (h1 : ch.addCd.length + ch.remC.length = ch.addC.length + ch.remCd.length) (h2 : ch.addC.length < ch.addCd.length)
    (h3 : ch.addC ≠ [] ∨ ch.remC ≠ [] ∨ 2 ≤ ch.remCd.length) : (DM.tryUpdate o dbg junk ch s).1 = .ub :=
  tryUpdate_pastEnd dbg junk h.good.sane h1 h2 h3

/-! ## C25: rejected trials -/

/-- C25: a rejected trial leaves the operators and the time-ordered determinant as they were.
    Partial: of the trials reported as impossible, only insertions are covered; see the violations below. -/
theorem C25_reject_partial (dbg : Bool) (junk : ℕ → ℕ → K) {j s : DM K Cd Co T} {A : Conf Cd Co}
    (h : Reached o dbg junk j A s) {ch : Change Cd Co}
    (hc : (∃ A', Valid o A ch A' ∨ Singular o A ch A') ∨ Clash o A ch ∨ ch.Uneven) :
    ∃ r s1 s2, DM.tryUpdate o dbg junk ch s = (.ok r, s1) ∧ DM.rejectUpdate o dbg s1 = (.ok (), s2) ∧
      s2.cd.set = s.cd.set ∧ s2.c.set = s.c.set ∧ s2.computeDeterminant = s.computeDeterminant ∧ ShowsConf o s2 A := by
  have key : ∃ r s1 s2, DM.tryUpdate o dbg junk ch s = (.ok r, s1) ∧ DM.rejectUpdate o dbg s1 = (.ok (), s2) ∧ Good o s2 A := by
    rcases hc with ⟨A', hv | hv⟩ | hv | hv
    · obtain ⟨s1, e1, -, s2, e2, g⟩ := update_ok dbg junk h.good hv
      exact ⟨_, s1, s2, e1, e2, g⟩
    · obtain ⟨s1, s2, e1, e2, g⟩ := singular_ok dbg junk h.good hv
      exact ⟨_, s1, s2, e1, e2, g⟩
    · obtain ⟨s1, s2, e1, e2, g⟩ := clash_ok dbg junk h.good hv
      exact ⟨_, s1, s2, e1, e2, g⟩
    · obtain ⟨s1, e1, e2, -, g⟩ := uneven_ok dbg junk h.good hv
      exact ⟨_, s1, s1, e1, e2, g⟩
  obtain ⟨r, s1, s2, e1, e2, g⟩ := key
  have a := h.good.shows
  have b := g.shows
  exact ⟨r, s1, s2, e1, e2, by rw [b.setCd, a.setCd], by rw [b.setC, a.setC], by rw [b.det, a.det], b⟩

/-- Two configurations of different size do not show the same set. -/
theorem byTime_ne {X : Type} {τ : X → T} {a b : List X} (h : a.length ≠ b.length) : byTime τ a ≠ byTime τ b := by
  intro e
  have := congrArg List.length e
  rw [byTime, byTime, List.length_insertionSort, List.length_insertionSort] at this
  exact h this

/-- Violation of C25: pairs are removed for good; then a removal that names an operator twice is tried (it is reported as
    impossible) and rejected.  The rejection brings back the operators removed before. -/
theorem C25_impossible_removal_violation (dbg : Bool) (junk : ℕ → ℕ → K) {j s : DM K Cd Co T} {A A' : Conf Cd Co}
    (h : Reached o dbg junk j A s) {ch ch2 : Change Cd Co}
    (a1 : ch.addCd = []) (a2 : ch.addC = []) (hl : ch.remCd.length = ch.remC.length) (hne : ch.remCd ≠ [])
    (t1 : A.cds.Perm (A'.cds ++ ch.remCd)) (t2 : A.cs.Perm (A'.cs ++ ch.remC)) (hdet : A'.det o ≠ 0)
    (b1 : ch2.addCd = []) (b2 : ch2.addC = []) (hl2 : ch2.remCd.length = ch2.remC.length) (m1 : ∀ a ∈ ch2.remCd, a ∈ A'.cds)
    (m2 : ∀ b ∈ ch2.remC, b ∈ A'.cs) (hdup : ¬ (ch2.remCd.map o.tcd ++ ch2.remC.map o.tc).Nodup) :
    ∃ s1 s2 s3 s4, DM.tryUpdate o dbg junk ch s = (.ok (A'.det o / A.det o), s1) ∧
      DM.performUpdate o dbg junk s1 = (.ok (), s2) ∧ ShowsConf o s2 A' ∧
      DM.tryUpdate o dbg junk ch2 s2 = (.ok 0, s3) ∧ DM.rejectUpdate o dbg s3 = (.ok (), s4) ∧
      s4.cd.set = byTime o.tcd A.cds ∧ s4.c.set = byTime o.tc A.cs ∧ s4.cd.set ≠ s2.cd.set := by
  obtain ⟨s1, e1, q1, -, e2, -⟩ := trial_remove' junk (h.good.setMode (some .rem)) (rem := ch.remCd.zip ch.remC) (zip_ne hl hne)
    (A' := A') (by rw [zip_fst hl]; exact t1) (by rw [zip_snd hl]; exact t2)
  obtain ⟨s2, e3, q2, g, ps, r, p1, p2⟩ := e2 hdet
  obtain ⟨s3, s4, e4, e5, f1, f2⟩ := removeTwice_ok dbg junk g h.good.dist r p1 p2 b1 b2 hl2 m1 m2 hdup
  refine ⟨s1, s2, s3, s4, ?_, ?_, g.shows, e4, e5, f1, f2, ?_⟩
  · rw [tryUpdate_rem dbg junk h.good.sane a1 a2 hl hne]; exact e1
  · rw [perform_mode dbg junk q1]; exact e3
  · rw [f1, g.shows.setCd]
    refine byTime_ne ?_
    have := t1.length_eq
    have h' := List.length_pos_iff.mpr hne
    rw [List.length_append] at this
    omega

/-- Violation of C25 (release build): pairs are exchanged for others for good; then an exchange that cannot be done is tried (ratio 0) and
    rejected.  The rejection undoes the exchange that was accepted before. -/
theorem C25_impossible_exchange_violation (junk : ℕ → ℕ → K) {j s : DM K Cd Co T} {A R A' R' : Conf Cd Co}
    (h : Reached o false junk j A s) {ch ch2 : Change Cd Co}
    (hl : ch.remCd.length = ch.remC.length) (hla : ch.addCd.length = ch.addC.length) (hne : ch.remCd ≠ [])
    (hna : ch.addCd ≠ []) (ht : Takes A ch R A') (hd : A'.Distinct o) (hR : R.det o ≠ 0) (hdet : A'.det o ≠ 0)
    (hl2 : ch2.remCd.length = ch2.remC.length) (hla2 : ch2.addCd.length = ch2.addC.length) (hne2 : ch2.remCd ≠ [])
    (hna2 : ch2.addCd ≠ []) (t1 : A'.cds.Perm (R'.cds ++ ch2.remCd)) (t2 : A'.cs.Perm (R'.cs ++ ch2.remC))
    (hc : ¬ (Conf.mk (R'.cds ++ ch2.addCd) (R'.cs ++ ch2.addC)).Distinct o)
    (hdiff : byTime o.tcd A.cds ≠ byTime o.tcd A'.cds) :
    ∃ s1 s2 s3 s4, DM.tryUpdate o false junk ch s = (.ok (A'.det o / A.det o), s1) ∧
      DM.performUpdate o false junk s1 = (.ok (), s2) ∧ ShowsConf o s2 A' ∧
      DM.tryUpdate o false junk ch2 s2 = (.ok 0, s3) ∧ DM.rejectUpdate o false s3 = (.ok (), s4) ∧
      s4.cd.set = byTime o.tcd A.cds ∧ s4.c.set = byTime o.tc A.cs ∧ s4.cd.set ≠ s2.cd.set := by
  obtain ⟨s1, r, e1, er, q1, -, e2, -⟩ := trial_remAdd' false junk (h.good.setMode (some .remAdd)) (rem := ch.remCd.zip ch.remC)
    (add := ch.addCd.zip ch.addC) (R := R) (A' := A') (zip_ne hl hne) (by rw [zip_fst hl]; exact ht.oldCds)
    (by rw [zip_snd hl]; exact ht.oldCs) (by rw [zip_fst hla]; exact ht.newCds) (by rw [zip_snd hla]; exact ht.newCs) hd
  obtain ⟨-, s2, e3, q2, g, ps, FA, FB, r1, n1, o1, o2, p1, p2⟩ := e2 hR hdet
  rw [if_neg hR] at er
  subst er
  obtain ⟨s3, s4, e4, e5, -, -, -, f1, f2⟩ := remAddClash_ok false junk g h.good.dist r1 n1 o1 o2 p1 p2 hl2 hla2 hne2 hna2 t1 t2 hc
  refine ⟨s1, s2, s3, s4, ?_, ?_, g.shows, e4, e5, f1, f2, ?_⟩
  · rw [tryUpdate_remAdd false junk h.good.sane hl hla hne hna]; exact e1
  · rw [perform_mode false junk q1]; exact e3
  · rw [f1, g.shows.setCd]; exact hdiff

/-- C25 in the debug build: pairs are exchanged for others for good; then an exchange that cannot be done is tried (ratio 0) and
    rejected.  If the exchange that was accepted before changed the number of operators, the rejection is stopped by an assert. -/
theorem C25_impossible_exchange_debug (junk : ℕ → ℕ → K) {j s : DM K Cd Co T} {A R A' R' : Conf Cd Co}
    (h : Reached o true junk j A s) {ch ch2 : Change Cd Co}
    (hl : ch.remCd.length = ch.remC.length) (hla : ch.addCd.length = ch.addC.length) (hne : ch.remCd ≠ [])
    (hna : ch.addCd ≠ []) (ht : Takes A ch R A') (hd : A'.Distinct o) (hR : R.det o ≠ 0) (hdet : A'.det o ≠ 0)
    (hl2 : ch2.remCd.length = ch2.remC.length) (hla2 : ch2.addCd.length = ch2.addC.length) (hne2 : ch2.remCd ≠ [])
    (hna2 : ch2.addCd ≠ []) (t1 : A'.cds.Perm (R'.cds ++ ch2.remCd)) (t2 : A'.cs.Perm (R'.cs ++ ch2.remC))
    (hc : ¬ (Conf.mk (R'.cds ++ ch2.addCd) (R'.cs ++ ch2.addC)).Distinct o)
    (hdiff : A.cds.length ≠ A'.cds.length) :
    ∃ s1 s2 s3, DM.tryUpdate o true junk ch s = (.ok (A'.det o / A.det o), s1) ∧
      DM.performUpdate o true junk s1 = (.ok (), s2) ∧ ShowsConf o s2 A' ∧
      DM.tryUpdate o true junk ch2 s2 = (.ok 0, s3) ∧ (DM.rejectUpdate o true s3).1 = .ub := by
  obtain ⟨s1, r, e1, er, q1, -, e2, -⟩ := trial_remAdd' true junk (h.good.setMode (some .remAdd)) (rem := ch.remCd.zip ch.remC)
    (add := ch.addCd.zip ch.addC) (R := R) (A' := A') (zip_ne hl hne) (by rw [zip_fst hl]; exact ht.oldCds)
    (by rw [zip_snd hl]; exact ht.oldCs) (by rw [zip_fst hla]; exact ht.newCds) (by rw [zip_snd hla]; exact ht.newCs) hd
  obtain ⟨-, s2, e3, q2, g, ps, FA, FB, r1, n1, o1, o2, p1, p2⟩ := e2 hR hdet
  rw [if_neg hR] at er
  subst er
  obtain ⟨s3, s4, e4, e5, w, iv, pm, -, -⟩ := remAddClash_ok true junk g h.good.dist r1 n1 o1 o2 p1 p2 hl2 hla2 hne2 hna2 t1 t2 hc
  refine ⟨s1, s2, s3, ?_, ?_, g.shows, e4, ?_⟩
  · rw [tryUpdate_remAdd true junk h.good.sane hl hla hne hna]; exact e1
  · rw [perform_mode true junk q1]; exact e3
  · rw [e5]; exact sanityCheck_size w (by rw [iv, g.core.inv.1, pm.length_eq]; exact hdiff.symm)

/-! ## C26: the call protocol -/

/-- C26 for a build with asserts: a trial while another one is pending raises `logic_error` and changes nothing. -/
theorem C26_second_trial_debug (junk : ℕ → ℕ → K) {s : DM K Cd Co T} (hs : s.state ≠ .waiting) (ch : Change Cd Co) :
    DM.tryUpdate o true junk ch s = (.throw .logicError, s) := by
  have : DM.sanityCheck o true s = (.throw .logicError, s) := by
    unfold DM.sanityCheck
    rw [if_pos rfl]
    exact checkState_throw hs _
  exact Act.bind_throw this

/-- C26 for a release build: a (well-formed, non-empty) trial while another one is pending raises `logic_error`.
    Partial: the remembered kind of update is overwritten; see the violation below. -/
theorem C26_second_trial_partial (junk : ℕ → ℕ → K) {s : DM K Cd Co T} (hs : s.state ≠ .waiting) {ch : Change Cd Co}
    (hr : ch.Regular) (hne : ch.remCd ≠ [] ∨ ch.remC ≠ [] ∨ ch.addCd ≠ [] ∨ ch.addC ≠ []) :
    ∃ m, DM.tryUpdate o false junk ch s = (.throw .logicError, { s with mode := some m }) :=
  second_trial junk hs hr hne

/-- Violation of C26 in a release build: while an insertion is pending, a removal is tried.  It raises `logic_error`, but
    from then on the insertion can be neither performed nor rejected: both raise `logic_error`, for ever. -/
theorem C26_second_trial_violation (junk : ℕ → ℕ → K) {j s : DM K Cd Co T} {A A' : Conf Cd Co}
    (h : Reached o false junk j A s) {ch ch2 : Change Cd Co} (hv : Valid o A ch A') (a1 : ch.remCd = []) (a2 : ch.remC = [])
    (hne : ch.addCd ≠ []) (b1 : ch2.addCd = []) (b2 : ch2.addC = []) (hl2 : ch2.remCd.length = ch2.remC.length)
    (hne2 : ch2.remCd ≠ []) :
    ∃ s1 s2, DM.tryUpdate o false junk ch s = (.ok (A'.det o / A.det o), s1) ∧
      (DM.rejectUpdate o false s1).1 = .ok () ∧
      DM.tryUpdate o false junk ch2 s1 = (.throw .logicError, s2) ∧
      DM.performUpdate o false junk s2 = (.throw .logicError, s2) ∧ DM.rejectUpdate o false s2 = (.throw .logicError, s2) ∧
      ∃ m, DM.tryUpdate o false junk ch s2 = (.throw .logicError, { s2 with mode := some m }) := by
  obtain ⟨reg, ⟨R, tk, -⟩, hd⟩ := hv
  have hl : ch.addCd.length = ch.addC.length := by
    rcases reg with ⟨-, hh⟩ | ⟨hh, -⟩ | ⟨hh, -⟩
    · exact hh
    · rw [a1] at hh; simp at hh
    · rw [a2] at hh; simp at hh
  have p1 : A.cds.Perm R.cds := by have := tk.oldCds; rwa [a1, List.append_nil] at this
  have p2 : A.cs.Perm R.cs := by have := tk.oldCs; rwa [a2, List.append_nil] at this
  obtain ⟨s1, e1, q1, st, -, s', e2, -⟩ := trial_add (A' := A') false junk (h.good.setMode (some .add)) (zip_ne hl hne)
    (by rw [zip_fst hl]; exact tk.newCds.trans (p1.symm.append_right _))
    (by rw [zip_snd hl]; exact tk.newCs.trans (p2.symm.append_right _)) hd
  have hw : s1.state ≠ .waiting := by rw [st]; decide
  have hw2 : s1.state ≠ .tryRem := by rw [st]; decide
  refine ⟨s1, { s1 with mode := some .rem }, ?_, ?_, second_trial_rem junk hw b1 b2 hl2 hne2, ?_, ?_, ?_⟩
  · rw [tryUpdate_add false junk h.good.sane a1 a2 hl hne]; exact e1
  · rw [reject_mode false q1]; exact congrArg Prod.fst e2
  · exact (perform_wrong false junk (s := { s1 with mode := some .rem })).2.1 rfl hw2
  · exact (reject_wrong false (s := { s1 with mode := some .rem })).2.1 rfl hw2
  · exact second_trial junk (s := { s1 with mode := some .rem }) hw reg (Or.inr (Or.inr (Or.inl hne)))

/-- C26: `perform_update` and `reject_update` without a pending trial raise `logic_error` and change nothing.
    Partial: not after an empty or uneven trial, not on a fresh object, and not for `perform_update` after a combined change;
    see the violations below. -/
theorem C26_no_trial_partial (dbg : Bool) (junk : ℕ → ℕ → K) {s : DM K Cd Co T} {m : DMode} (hs : s.state = .waiting)
    (hm : s.mode = some m) (h1 : m ≠ .doNothing) (h2 : m ≠ .invalid) :
    DM.rejectUpdate o dbg s = (.throw .logicError, s) ∧
    (DM.performUpdate o dbg junk s).1 = .throw .logicError ∧
    (m ≠ .remAdd → DM.performUpdate o dbg junk s = (.throw .logicError, s)) := by
  obtain ⟨p1, p2, p3, p4, p5⟩ := perform_wrong (o := o) dbg junk (s := s)
  obtain ⟨r1, r2, r3, r4, r5⟩ := reject_wrong (o := o) dbg (s := s)
  cases m with
  | doNothing => exact absurd rfl h1
  | invalid => exact absurd rfl h2
  | add =>
    have := p1 hm (by rw [hs]; decide)
    exact ⟨r1 hm (by rw [hs]; decide), by rw [this], fun _ => this⟩
  | rem =>
    have := p2 hm (by rw [hs]; decide)
    exact ⟨r2 hm (by rw [hs]; decide), by rw [this], fun _ => this⟩
  | replaceCd =>
    have := p3 hm (by rw [hs]; decide)
    exact ⟨r3 hm (by rw [hs]; decide), by rw [this], fun _ => this⟩
  | replaceC =>
    have := p4 hm (by rw [hs]; decide)
    exact ⟨r4 hm (by rw [hs]; decide), by rw [this], fun _ => this⟩
  | remAdd =>
    have := p5 hm (by rw [hs]; decide)
    exact ⟨r5 hm (by rw [hs]; decide), by rw [this], fun h => absurd rfl h⟩

/-- Violation of C26: on a fresh object `perform_update` and `reject_update` read an uninitialised member; after an uneven
    trial (and after an empty one) they can be called any number of times and raise nothing. -/
theorem C26_no_trial_violation (dbg : Bool) (junk : ℕ → ℕ → K) (j : DM K Cd Co T) {s : DM K Cd Co T} {A : Conf Cd Co}
    (h : Reached o dbg junk j A s) {ch : Change Cd Co} (hu : ch.Uneven) :
    (DM.performUpdate o dbg junk (DM.create j)).1 = .ub ∧ (DM.rejectUpdate o dbg (DM.create j)).1 = .ub ∧
    ∃ s1, DM.tryUpdate o dbg junk ch s = (.ok 0, s1) ∧ DM.performUpdate o dbg junk s1 = (.ok (), s1) ∧
      DM.rejectUpdate o dbg s1 = (.ok (), s1) := by
  obtain ⟨s1, e1, e2, e3, -⟩ := uneven_ok dbg junk h.good hu
  exact ⟨rfl, rfl, s1, e1, e3, e2⟩

/-- Violation of C26: after a rejected change of pairs, `perform_update` raises `logic_error`, but only after it has
    overwritten the inverse matrix with that of the rejected configuration: its size is wrong from then on. -/
theorem C26_perform_violation (dbg : Bool) (junk : ℕ → ℕ → K) {j s : DM K Cd Co T} {A R A' : Conf Cd Co}
    (h : Reached o dbg junk j A s) {ch : Change Cd Co} (hl : ch.remCd.length = ch.remC.length)
    (hla : ch.addCd.length = ch.addC.length) (hne : ch.remCd ≠ []) (hna : ch.addCd ≠ []) (ht : Takes A ch R A')
    (hd : A'.Distinct o) (hR : R.det o ≠ 0) (hdet : A'.det o ≠ 0) (hsz : A'.cds.length ≠ A.cds.length) :
    ∃ s1 s2 s3, DM.tryUpdate o dbg junk ch s = (.ok (A'.det o / A.det o), s1) ∧
      DM.rejectUpdate o dbg s1 = (.ok (), s2) ∧ ShowsConf o s2 A ∧
      DM.performUpdate o dbg junk s2 = (.throw .logicError, s3) ∧ ¬ ShowsConf o s3 A := by
  obtain ⟨s1, r, e1, er, q1, st, e2, s2, e3, q2, g⟩ := trial_remAdd' dbg junk (h.good.setMode (some .remAdd))
    (rem := ch.remCd.zip ch.remC) (add := ch.addCd.zip ch.addC) (R := R) (A' := A') (zip_ne hl hne)
    (by rw [zip_fst hl]; exact ht.oldCds) (by rw [zip_snd hl]; exact ht.oldCs) (by rw [zip_fst hla]; exact ht.newCds)
    (by rw [zip_snd hla]; exact ht.newCs) hd
  rw [if_neg hR] at er
  subst er
  have k := keeps_rejectRemoveAdd (o := o) dbg s1
  rw [e3] at k
  simp only [mixedPart, Prod.mk.injEq] at k
  obtain ⟨k1, k2, k3, k4, k5⟩ := k
  refine ⟨s1, s2, _, ?_, ?_, g.shows, (perform_wrong dbg junk (s := s2)).2.2.2.2 q2 (by rw [g.st]; decide), ?_⟩
  · rw [tryUpdate_remAdd dbg junk h.good.sane hl hla hne hna]; exact e1
  · rw [reject_mode dbg q1]; exact e3
  · intro hS
    have := hS.inv.1
    dsimp only at this
    rw [k2, k3, k4, k5, (e2 hR hdet).1] at this
    exact hsz this

/-! ## Concrete cases that meet the hypotheses -/

/-- Any configuration with distinct times and invertible matrix can be reached. -/
theorem reached_of (dbg : Bool) (junk : ℕ → ℕ → K) (j : DM K Cd Co T) {A : Conf Cd Co} (hl : A.cds.length = A.cs.length)
    (hd : A.Distinct o) (hdet : A.det o ≠ 0) : ∃ s, Reached o dbg junk j A s := by
  have hh : History o ⟨[], []⟩ [(⟨[], [], A.cds, A.cs⟩, true)] [A.det o / (Conf.mk [] []).det o] A :=
    .accept _ _ A _ _ _ ⟨Or.inl ⟨rfl, hl⟩, ⟨⟨[], []⟩, ⟨by simp, by simp, by simp, by simp⟩, fun hm => absurd rfl hm.1⟩, hd⟩ hdet
      (.done _ _ ⟨.refl _, .refl _⟩)
  obtain ⟨s, e, -⟩ := play_ok dbg junk hh (DM.create j) (create_good j)
  exact ⟨s, _, _, hh, e⟩

section examples

/-- Times are the operators themselves; `G = 2` for neighbours, else 1. -/
def sysA : OpSys ℚ ℕ ℕ ℕ := ⟨id, id, fun b a => if b = a + 1 then 2 else 1⟩

/-- `G = 1` for neighbours, `2` at distance five, else 0. -/
def sysB : OpSys ℚ ℕ ℕ ℕ := ⟨id, id, fun b a => if b = a + 1 then 1 else if b = a + 5 then 2 else 0⟩

/-- `G = 0` for neighbours, else 1. -/
def sysC : OpSys ℚ ℕ ℕ ℕ := ⟨id, id, fun b a => if b = a + 1 then 0 else 1⟩

theorem det0 {X Y : Type} (o : OpSys ℚ X Y ℕ) : (Conf.mk [] []).det o = 1 := by simp [Conf.det, detN, toM]

theorem det1 {X Y : Type} (o : OpSys ℚ X Y ℕ) (a : X) (b : Y) : (Conf.mk [a] [b]).det o = o.G b a := by
  simp [Conf.det, detN, toM, byTime, List.insertionSort_cons, List.orderedInsert, greenAt]

theorem det2 {X Y : Type} (o : OpSys ℚ X Y ℕ) {x y a a' : X} {z w b b' : Y} (h1 : byTime o.tcd [x, y] = [a, a'])
    (h2 : byTime o.tc [z, w] = [b, b']) : (Conf.mk [x, y] [z, w]).det o = o.G b a * o.G b' a' - o.G b a' * o.G b' a := by
  unfold Conf.det
  dsimp only
  rw [h1, h2]
  simp [detN, toM, greenAt, Matrix.det_fin_two]

theorem detA2 : (Conf.mk [2, 0] [1, 3]).det sysA = 3 := by
  rw [det2 _ (a := 0) (a' := 2) (b := 1) (b' := 3) (by decide) (by decide)]; norm_num [sysA]

theorem detB2 : (Conf.mk [0, 2] [1, 3]).det sysB = 1 := by
  rw [det2 _ (a := 0) (a' := 2) (b := 1) (b' := 3) (by decide) (by decide)]; norm_num [sysB]

theorem detB2' : (Conf.mk [0, 2] [5, 7]).det sysB = 4 := by
  rw [det2 _ (a := 0) (a' := 2) (b := 5) (b' := 7) (by decide) (by decide)]; norm_num [sysB]

theorem detC2 : (Conf.mk [0, 2] [1, 3]).det sysC = -1 := by
  rw [det2 _ (a := 0) (a' := 2) (b := 1) (b' := 3) (by decide) (by decide)]; norm_num [sysC]

theorem detC2' : (Conf.mk [0, 4] [1, 5]).det sysC = -1 := by
  rw [det2 _ (a := 0) (a' := 4) (b := 1) (b' := 5) (by decide) (by decide)]; norm_num [sysC]

/-- Two pairs are inserted, one is removed, a replacement is rejected, an insertion at a time already used is impossible. -/
theorem exHistory : History sysA ⟨[], []⟩
    [(⟨[], [], [2, 0], [1, 3]⟩, true), (⟨[2], [3], [], []⟩, true), (⟨[0], [], [4], []⟩, false), (⟨[], [], [1], [8]⟩, false)]
    [3, 2 / 3, 1 / 2, 0] ⟨[0], [1]⟩ := by
  have hA : ∀ ch : Change ℕ ℕ, ch.remCd = [] ∨ ch.remC = [] ∨ ch.addCd = [] ∨ ch.addC = [] → ¬ ch.Mixed := by
    rintro ch (h | h | h | h) ⟨a, b, c, d⟩ <;> contradiction
  have h4 : History sysA ⟨[0], [1]⟩ [(⟨[], [], [1], [8]⟩, false)] [0] ⟨[0], [1]⟩ :=
    .clash _ _ _ _ _ ⟨rfl, rfl, rfl, by simp [Conf.Distinct, sysA]⟩ (.done _ _ ⟨.refl _, .refl _⟩)
  have h3 := History.reject (o := sysA) ⟨[0], [1]⟩ ⟨[0], [], [4], []⟩ ⟨[4], [1]⟩ _ _ _
    ⟨Or.inr (Or.inl ⟨rfl, rfl, rfl, rfl⟩), ⟨⟨[], [1]⟩, ⟨by simp, by simp, by simp, by simp⟩, fun hm => absurd hm (hA _ (by simp))⟩,
      by simp [Conf.Distinct, sysA]⟩ h4
  have h2 := History.accept (o := sysA) ⟨[2, 0], [1, 3]⟩ ⟨[2], [3], [], []⟩ ⟨[0], [1]⟩ _ _ _
    ⟨Or.inl ⟨rfl, rfl⟩, ⟨⟨[0], [1]⟩, ⟨List.Perm.swap _ _ _, .refl _, by simp, by simp⟩, fun hm => absurd hm (hA _ (by simp))⟩,
      by simp [Conf.Distinct, sysA]⟩ (by rw [det1]; simp [sysA]) h3
  have h1 := History.accept (o := sysA) ⟨[], []⟩ ⟨[], [], [2, 0], [1, 3]⟩ ⟨[2, 0], [1, 3]⟩ _ _ _
    ⟨Or.inl ⟨rfl, rfl⟩, ⟨⟨[], []⟩, ⟨by simp, by simp, by simp, by simp⟩, fun hm => absurd hm (hA _ (by simp))⟩,
      by simp [Conf.Distinct, sysA]⟩ (by rw [detA2]; norm_num) h2
  rw [det0, detA2, det1, det1] at h1
  simpa [sysA] using h1

/-- C24 in this case. -/
example (junk : ℕ → ℕ → ℚ) (j : DM ℚ ℕ ℕ ℕ) : ∃ s,
    play sysA true junk
      [(⟨[], [], [2, 0], [1, 3]⟩, true), (⟨[2], [3], [], []⟩, true), (⟨[0], [], [4], []⟩, false), (⟨[], [], [1], [8]⟩, false)]
      (DM.create j) = (.ok [3, 2 / 3, 1 / 2, 0], s) ∧ ShowsConf sysA s ⟨[0], [1]⟩ :=
  C24_histories_partial true junk j exHistory

/-- C24 from a list: two pairs, then one of them is removed. -/
example (junk : ℕ → ℕ → ℚ) (j : DM ℚ ℕ ℕ ℕ) : ∃ s s',
    DM.createWith sysA junk j [(2, 1), (0, 3)] = (.ok (), s) ∧ ShowsConf sysA s ⟨[2, 0], [1, 3]⟩ ∧
      play sysA true junk [(⟨[2], [3], [], []⟩, true)] s = (.ok [2 / 3], s') ∧ ShowsConf sysA s' ⟨[0], [1]⟩ := by
  refine C24_from_list_partial true junk j (by simp) (by simp [Conf.Distinct, sysA]) (by simp [detA2]) ?_
  have := History.accept (o := sysA) ⟨[2, 0], [1, 3]⟩ ⟨[2], [3], [], []⟩ ⟨[0], [1]⟩ [] [] ⟨[0], [1]⟩
    ⟨Or.inl ⟨rfl, rfl⟩, ⟨⟨[0], [1]⟩, ⟨List.Perm.swap _ _ _, .refl _, by simp, by simp⟩, fun hm => absurd rfl hm.2.2.1⟩,
      by simp [Conf.Distinct, sysA]⟩ (by rw [det1]; simp [sysA]) (.done _ _ ⟨.refl _, .refl _⟩)
  rw [detA2, det1] at this
  simpa [sysA] using this

/-- The determinants of the two configurations have ratio 4; the trial reports 1. -/
theorem C24_replace_many_witness (dbg : Bool) (junk : ℕ → ℕ → ℚ) (j : DM ℚ ℕ ℕ ℕ) :
    ∃ s s1 s2, Reached sysB dbg junk j ⟨[0, 2], [1, 3]⟩ s ∧
      DM.tryUpdate sysB dbg junk ⟨[], [1, 3], [], [5, 7]⟩ s = (.ok 1, s1) ∧
      (Conf.mk [0, 2] [5, 7]).det sysB / (Conf.mk [0, 2] [1, 3]).det sysB = 4 ∧
      DM.performUpdate sysB dbg junk s1 = (.ok (), s2) ∧ ShowsConf sysB s2 ⟨[0, 2], [1, 3]⟩ := by
  obtain ⟨s, h⟩ := reached_of (o := sysB) dbg junk j (A := ⟨[0, 2], [1, 3]⟩) rfl (by simp [Conf.Distinct, sysB])
    (by rw [detB2]; norm_num)
  obtain ⟨s1, s2, e1, -, e2, g, -⟩ := C24_replace_many_violation dbg junk h (ch := ⟨[], [1, 3], [], [5, 7]⟩) (R := ⟨[0, 2], []⟩)
    (A' := ⟨[0, 2], [5, 7]⟩) ⟨by simp, by simp, by simp, by simp⟩ rfl rfl rfl (le_refl _)
    (by rintro ⟨-, hp⟩; have := hp.subset (List.mem_cons_self); simp at this) (by rw [detB2, detB2']; norm_num)
  exact ⟨s, s1, s2, h, e1, by rw [detB2, detB2']; norm_num, e2, g⟩

/-- The determinants of the two configurations are equal; the trial reports ratio 0. -/
theorem C24_singular_rest_witness (dbg : Bool) (junk : ℕ → ℕ → ℚ) (j : DM ℚ ℕ ℕ ℕ) :
    ∃ s s1, Reached sysC dbg junk j ⟨[0, 2], [1, 3]⟩ s ∧
      DM.tryUpdate sysC dbg junk ⟨[2], [3], [4], [5]⟩ s = (.ok 0, s1) ∧
      (Conf.mk [0, 4] [1, 5]).det sysC / (Conf.mk [0, 2] [1, 3]).det sysC = 1 := by
  obtain ⟨s, h⟩ := reached_of (o := sysC) dbg junk j (A := ⟨[0, 2], [1, 3]⟩) rfl (by simp [Conf.Distinct, sysC])
    (by rw [detC2]; norm_num)
  obtain ⟨s1, e1, -⟩ := C24_singular_rest_violation dbg junk h (ch := ⟨[2], [3], [4], [5]⟩) (A' := ⟨[0, 4], [1, 5]⟩)
    ⟨⟨rfl, rfl⟩, ⟨by simp, by simp, by simp, by simp⟩, ⟨⟨[0], [1]⟩, ⟨.refl _, .refl _, .refl _, .refl _⟩, by rw [det1]; simp [sysC]⟩,
      by simp [Conf.Distinct, sysC]⟩ (by rw [detC2']; norm_num)
  exact ⟨s, s1, h, e1, by rw [detC2, detC2']; norm_num⟩

/-- Two creation operators are to be replaced. -/
theorem C24_past_end_witness (dbg : Bool) (junk : ℕ → ℕ → ℚ) (j : DM ℚ ℕ ℕ ℕ) :
    ∃ s, Reached sysB dbg junk j ⟨[0, 2], [1, 3]⟩ s ∧ (DM.tryUpdate sysB dbg junk ⟨[0, 2], [], [4, 6], []⟩ s).1 = .ub := by
  obtain ⟨s, h⟩ := reached_of (o := sysB) dbg junk j (A := ⟨[0, 2], [1, 3]⟩) rfl (by simp [Conf.Distinct, sysB])
    (by rw [detB2]; norm_num)
  exact ⟨s, h, C24_past_end_violation dbg junk h rfl (by simp) (by simp)⟩

/-- C24 (rebuilding) and C25 in a reachable state with two pairs; the rejected change exchanges a pair. -/
example (junk : ℕ → ℕ → ℚ) (j : DM ℚ ℕ ℕ ℕ) : ∃ s, Reached sysA true junk j ⟨[2, 0], [1, 3]⟩ s ∧
    (∃ s', DM.rebuild sysA true s = (.ok (), s') ∧ ShowsConf sysA s ⟨[2, 0], [1, 3]⟩ ∧ ShowsConf sysA s' ⟨[2, 0], [1, 3]⟩) ∧
    ∃ r s1 s2, DM.tryUpdate sysA true junk ⟨[2], [3], [4], [7]⟩ s = (.ok r, s1) ∧ DM.rejectUpdate sysA true s1 = (.ok (), s2) ∧
      s2.cd.set = s.cd.set ∧ s2.c.set = s.c.set ∧ s2.computeDeterminant = s.computeDeterminant ∧ ShowsConf sysA s2 ⟨[2, 0], [1, 3]⟩ := by
  obtain ⟨s, h⟩ := reached_of (o := sysA) true junk j (A := ⟨[2, 0], [1, 3]⟩) rfl (by simp [Conf.Distinct, sysA])
    (by rw [detA2]; norm_num)
  refine ⟨s, h, C24_rebuild true junk h, C25_reject_partial true junk h (Or.inl ⟨⟨[0, 4], [1, 7]⟩, Or.inl ?_⟩)⟩
  exact ⟨Or.inl ⟨rfl, rfl⟩, ⟨⟨[0], [1]⟩, ⟨List.Perm.swap _ _ _, .refl _, .refl _, .refl _⟩, fun _ => by rw [det1]; simp [sysA]⟩,
    by simp [Conf.Distinct, sysA]⟩

/-- The pair (2, 3) is removed for good; the rejected removal that names operator 0 twice brings it back. -/
theorem C25_impossible_removal_witness (dbg : Bool) (junk : ℕ → ℕ → ℚ) (j : DM ℚ ℕ ℕ ℕ) :
    ∃ s s1 s2 s3 s4, Reached sysA dbg junk j ⟨[2, 0], [1, 3]⟩ s ∧
      DM.tryUpdate sysA dbg junk ⟨[2], [3], [], []⟩ s = (.ok (2 / 3), s1) ∧ DM.performUpdate sysA dbg junk s1 = (.ok (), s2) ∧
      s2.cd.set = [0] ∧ s2.c.set = [1] ∧
      DM.tryUpdate sysA dbg junk ⟨[0, 0], [1, 1], [], []⟩ s2 = (.ok 0, s3) ∧ DM.rejectUpdate sysA dbg s3 = (.ok (), s4) ∧
      s4.cd.set = [0, 2] ∧ s4.c.set = [1, 3] := by
  obtain ⟨s, h⟩ := reached_of (o := sysA) dbg junk j (A := ⟨[2, 0], [1, 3]⟩) rfl (by simp [Conf.Distinct, sysA])
    (by rw [detA2]; norm_num)
  obtain ⟨s1, s2, s3, s4, e1, e2, g, e3, e4, f1, f2, -⟩ := C25_impossible_removal_violation dbg junk h
    (A' := ⟨[0], [1]⟩) (ch := ⟨[2], [3], [], []⟩) (ch2 := ⟨[0, 0], [1, 1], [], []⟩) rfl rfl rfl (by simp) (List.Perm.swap _ _ _)
    (.refl _) (by rw [det1]; simp [sysA]) rfl rfl rfl (by simp) (by simp) (by simp [sysA])
  refine ⟨s, s1, s2, s3, s4, h, ?_, e2, ?_, ?_, e3, e4, ?_, ?_⟩
  · rw [e1, detA2, det1]; simp [sysA]
  · rw [g.setCd]; decide
  · rw [g.setC]; decide
  · rw [f1]; decide
  · rw [f2]; decide

/-- The pair (2, 3) is exchanged for (4, 7) for good; the rejected exchange of (4, 7) for operators at time 0 undoes it. -/
theorem C25_impossible_exchange_witness (junk : ℕ → ℕ → ℚ) (j : DM ℚ ℕ ℕ ℕ) :
    ∃ s s1 s2 s3 s4, Reached sysA false junk j ⟨[2, 0], [1, 3]⟩ s ∧
      DM.tryUpdate sysA false junk ⟨[2], [3], [4], [5]⟩ s = (.ok 1, s1) ∧ DM.performUpdate sysA false junk s1 = (.ok (), s2) ∧
      s2.cd.set = [0, 4] ∧ s2.c.set = [1, 5] ∧
      DM.tryUpdate sysA false junk ⟨[4], [5], [0], [9]⟩ s2 = (.ok 0, s3) ∧ DM.rejectUpdate sysA false s3 = (.ok (), s4) ∧
      s4.cd.set = [0, 2] ∧ s4.c.set = [1, 3] := by
  obtain ⟨s, h⟩ := reached_of (o := sysA) false junk j (A := ⟨[2, 0], [1, 3]⟩) rfl (by simp [Conf.Distinct, sysA])
    (by rw [detA2]; norm_num)
  have dd : (Conf.mk [0, 4] [1, 5]).det sysA = 3 := by
    rw [det2 _ (a := 0) (a' := 4) (b := 1) (b' := 5) (by decide) (by decide)]; norm_num [sysA]
  obtain ⟨s1, s2, s3, s4, e1, e2, g, e3, e4, f1, f2, -⟩ := C25_impossible_exchange_violation junk h
    (R := ⟨[0], [1]⟩) (R' := ⟨[0], [1]⟩) (A' := ⟨[0, 4], [1, 5]⟩) (ch := ⟨[2], [3], [4], [5]⟩) (ch2 := ⟨[4], [5], [0], [9]⟩) rfl rfl
    (by simp) (by simp) ⟨List.Perm.swap _ _ _, .refl _, .refl _, .refl _⟩ (by simp [Conf.Distinct, sysA])
    (by rw [det1]; simp [sysA]) (by rw [dd]; norm_num) rfl rfl (by simp) (by simp) (.refl _) (.refl _)
    (by simp [Conf.Distinct, sysA]) (by decide)
  refine ⟨s, s1, s2, s3, s4, h, ?_, e2, ?_, ?_, e3, e4, ?_, ?_⟩
  · rw [e1, detA2, dd]; simp
  · rw [g.setCd]; decide
  · rw [g.setC]; decide
  · rw [f1]; decide
  · rw [f2]; decide

/-- The hypotheses of `C25_impossible_exchange_debug` can be met: a pair is exchanged for two. -/
example (junk : ℕ → ℕ → ℚ) (j : DM ℚ ℕ ℕ ℕ) :
    ∃ s s1 s2 s3, Reached sysA true junk j ⟨[0], [1]⟩ s ∧
      DM.tryUpdate sysA true junk ⟨[0], [1], [0, 2], [1, 3]⟩ s = (.ok (3 / 2), s1) ∧
      DM.performUpdate sysA true junk s1 = (.ok (), s2) ∧
      DM.tryUpdate sysA true junk ⟨[2], [3], [0], [9]⟩ s2 = (.ok 0, s3) ∧ (DM.rejectUpdate sysA true s3).1 = .ub := by
  obtain ⟨s, h⟩ := reached_of (o := sysA) true junk j (A := ⟨[0], [1]⟩) rfl (by simp [Conf.Distinct, sysA])
    (by rw [det1]; simp [sysA])
  have dd : (Conf.mk [0, 2] [1, 3]).det sysA = 3 := by
    rw [det2 _ (a := 0) (a' := 2) (b := 1) (b' := 3) (by decide) (by decide)]; norm_num [sysA]
  obtain ⟨s1, s2, s3, e1, e2, g, e3, e4⟩ := C25_impossible_exchange_debug junk h
    (R := ⟨[], []⟩) (R' := ⟨[0], [1]⟩) (A' := ⟨[0, 2], [1, 3]⟩) (ch := ⟨[0], [1], [0, 2], [1, 3]⟩) (ch2 := ⟨[2], [3], [0], [9]⟩)
    rfl rfl (by simp) (by simp) ⟨.refl _, .refl _, .refl _, .refl _⟩ (by simp [Conf.Distinct, sysA])
    (by rw [det0]; norm_num) (by rw [dd]; norm_num) rfl rfl (by simp) (by simp) (.refl _) (.refl _)
    (by simp [Conf.Distinct, sysA]) (by decide)
  refine ⟨s, s1, s2, s3, h, ?_, e2, e3, e4⟩
  rw [e1, dd, det1]; simp [sysA]

/-- C26 (second trial) with a pending insertion of (4, 7) in a reachable state. -/
theorem C26_second_trial_witness (junk : ℕ → ℕ → ℚ) (j : DM ℚ ℕ ℕ ℕ) :
    ∃ s s1 s2, Reached sysA false junk j ⟨[2, 0], [1, 3]⟩ s ∧ (DM.tryUpdate sysA false junk ⟨[], [], [4], [7]⟩ s).2 = s1 ∧
      DM.tryUpdate sysA false junk ⟨[2], [3], [], []⟩ s1 = (.throw .logicError, s2) ∧
      DM.performUpdate sysA false junk s2 = (.throw .logicError, s2) ∧
      DM.rejectUpdate sysA false s2 = (.throw .logicError, s2) := by
  obtain ⟨s, h⟩ := reached_of (o := sysA) false junk j (A := ⟨[2, 0], [1, 3]⟩) rfl (by simp [Conf.Distinct, sysA])
    (by rw [detA2]; norm_num)
  obtain ⟨s1, s2, e1, -, e2, e3, e4, -⟩ := C26_second_trial_violation junk h (A' := ⟨[2, 0, 4], [1, 3, 7]⟩)
    (ch := ⟨[], [], [4], [7]⟩) (ch2 := ⟨[2], [3], [], []⟩)
    ⟨Or.inl ⟨rfl, rfl⟩, ⟨⟨[2, 0], [1, 3]⟩, ⟨.refl _, .refl _, .refl _, .refl _⟩, fun hm => absurd rfl hm.1⟩,
      by simp [Conf.Distinct, sysA]⟩ rfl rfl (by simp) rfl rfl rfl (by simp)
  exact ⟨s, s1, s2, h, by rw [e1], e2, e3, e4⟩

/-- C26 (no trial) after a rejected trial of one pair for two pairs. -/
theorem C26_perform_witness (dbg : Bool) (junk : ℕ → ℕ → ℚ) (j : DM ℚ ℕ ℕ ℕ) :
    ∃ s s1 s2 s3, Reached sysA dbg junk j ⟨[2], [3]⟩ s ∧
      (DM.tryUpdate sysA dbg junk ⟨[2], [3], [2, 0], [1, 3]⟩ s).2 = s1 ∧ DM.rejectUpdate sysA dbg s1 = (.ok (), s2) ∧
      ShowsConf sysA s2 ⟨[2], [3]⟩ ∧ DM.performUpdate sysA dbg junk s2 = (.throw .logicError, s3) ∧ ¬ ShowsConf sysA s3 ⟨[2], [3]⟩ := by
  obtain ⟨s, h⟩ := reached_of (o := sysA) dbg junk j (A := ⟨[2], [3]⟩) rfl (by simp [Conf.Distinct, sysA])
    (by rw [det1]; simp [sysA])
  obtain ⟨s1, s2, s3, e1, e2, g, e3, e4⟩ := C26_perform_violation dbg junk h (R := ⟨[], []⟩) (A' := ⟨[2, 0], [1, 3]⟩)
    (ch := ⟨[2], [3], [2, 0], [1, 3]⟩) rfl rfl (by simp) (by simp) ⟨.refl _, .refl _, .refl _, .refl _⟩
    (by simp [Conf.Distinct, sysA]) (by rw [det0]; simp) (by rw [detA2]; norm_num) (by simp)
  exact ⟨s, s1, s2, s3, h, by rw [e1], e2, g, e3, e4⟩

/-- C26 (no trial, partial) after a trial that has been rejected: rejecting or performing it again raises an exception. -/
example (junk : ℕ → ℕ → ℚ) (j : DM ℚ ℕ ℕ ℕ) : ∃ s s1 s2, Reached sysA true junk j ⟨[2, 0], [1, 3]⟩ s ∧
    DM.tryUpdate sysA true junk ⟨[], [], [1], [8]⟩ s = (.ok 0, s1) ∧ DM.rejectUpdate sysA true s1 = (.ok (), s2) ∧
    DM.rejectUpdate sysA true s2 = (.throw .logicError, s2) ∧ DM.performUpdate sysA true junk s2 = (.throw .logicError, s2) := by
  obtain ⟨s, h⟩ := reached_of (o := sysA) true junk j (A := ⟨[2, 0], [1, 3]⟩) rfl (by simp [Conf.Distinct, sysA])
    (by rw [detA2]; norm_num)
  obtain ⟨s1, e1, q1, e2⟩ := trial_clash true (h.good.setMode (some .add)) (ps := [(1, 8)]) (by simp [Conf.Distinct, sysA])
  have := C26_no_trial_partial (o := sysA) true junk (s := { s with mode := some .add }) (m := .add) h.good.st rfl
    (by decide) (by decide)
  refine ⟨s, s1, { s with mode := some .add }, h, ?_, ?_, this.1, this.2.2 (by decide)⟩
  · rw [tryUpdate_add true junk h.good.sane rfl rfl rfl (by simp)]; exact e1
  · rw [reject_mode true q1]; exact e2

/-- C26 (violation) in a reachable state: an uneven trial. -/
example (junk : ℕ → ℕ → ℚ) (j : DM ℚ ℕ ℕ ℕ) : ∃ s, Reached sysA true junk j ⟨[2, 0], [1, 3]⟩ s ∧
    ∃ s1, DM.tryUpdate sysA true junk ⟨[], [], [4], []⟩ s = (.ok 0, s1) ∧ DM.performUpdate sysA true junk s1 = (.ok (), s1) ∧
      DM.rejectUpdate sysA true s1 = (.ok (), s1) := by
  obtain ⟨s, h⟩ := reached_of (o := sysA) true junk j (A := ⟨[2, 0], [1, 3]⟩) rfl (by simp [Conf.Distinct, sysA])
    (by rw [detA2]; norm_num)
  exact ⟨s, h, (C26_no_trial_violation true junk j h (ch := ⟨[], [], [4], []⟩) (by simp [Change.Uneven])).2.2⟩

end examples

end CTInt
