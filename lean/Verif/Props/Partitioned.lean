import Verif.Proofs.PartMore
import Mathlib.Tactic.IntervalCases
import Mathlib.Tactic.NormNum

/-!
# C27, C60: the determinant matrix split into sectors
-/

set_option linter.all false

namespace CTInt

variable {K Cd Co T : Type} [Field K] [DecidableEq K] [LinearOrder T] {o : OpSys K Cd Co T} {fl : FlSys Cd Co}

/-- C27: over every history of trials, accepted or rejected, from a new object, the operator sets stay in step with each
    other and with the configuration.  Partial: no two creation operators and no two annihilation operators have the same
    time (see the violations below), and no sector is asked for a change that `DeterminantMatrix` gets wrong (C24). -/
theorem C27_in_step_partial (hc : Connects o fl) (dbg : Bool) (junk : ℕ → ℕ → K) (j : ℕ → DM K Cd Co T) (np : ℤ) :
    ∃ s0 lab, PDM.create fl dbg j np = .ok s0 ∧ (∀ f < fl.nf, s0.blockOf f = .ok (lab f)) ∧ Sectors fl s0.ns lab ∧
      InStep o fl lab s0 ⟨[], []⟩ ∧
      ∀ l rs A, PHistory dbg o fl s0.ns lab ⟨[], []⟩ l rs A → ∃ s, pplay o fl dbg junk l s0 = (.ok rs, s) ∧ InStep o fl lab s A := by
  obtain ⟨s0, lab, e0, e1, hs, hz, m, hl, hg⟩ := pcreate_ok hc dbg j np
  refine ⟨s0, lab, e0, e1, hs, hg.inStep hl, fun l rs A hh => ?_⟩
  obtain ⟨s, m', e, g⟩ := pplay_ok dbg junk hl hz hh s0 m hg
  exact ⟨s, e, g.inStep hl⟩

/-- Violation of C27: a pair is tried whose creation operator has the time of an operator `a` that is there, in the same
    sector.  The trial reports 0, as it should; rejecting it erases `a` from the global set although its sector keeps it
    (built with `NDEBUG`; with asserts see `C27_rejected_duplicate_debug`). -/
theorem C27_rejected_duplicate_violation (hc : Connects o fl) {junk : ℕ → ℕ → K} {j : ℕ → DM K Cd Co T} {np : ℤ}
    {lab : ℕ → ℕ} {A : Conf Cd Co} {s : PDM K Cd Co T} (h : PReached o fl false junk j np lab A s) {a a' : Cd} {b' : Co}
    (ha : fl.fcd a' < fl.nf) (hb : fl.fc b' < fl.nf) (hs : lab (fl.fc b') = lab (fl.fcd a'))
    (hm : a ∈ A.cds) (hsa : lab (fl.fcd a) = lab (fl.fcd a')) (hta : o.tcd a = o.tcd a') (htb : o.tc b' ∉ A.cs.map o.tc) :
    InStep o fl lab s A ∧
    ∃ s1 s2, PDM.tryUpdate o fl false junk ⟨[], [], [a'], [b']⟩ s = (.ok 0, s1) ∧ PDM.rejectUpdate o false s1 = (.ok (), s2) ∧
      a ∉ s2.cd.set ∧ (∃ b ∈ s2.mats, a ∈ b.cd.set) ∧ ¬ InStep o fl lab s2 A := by
  obtain ⟨-, -, m, hl, hg⟩ := h.good hc
  obtain ⟨s1, s2, e1, -, e2, e3, e4⟩ := pdup_reject false junk hl hg ha hb hs hm hsa hta htb
  refine ⟨hg.inStep hl, s1, s2, e1, e2 rfl, e3, e4, fun hi => ?_⟩
  obtain ⟨b, hb1, hb2⟩ := e4
  exact e3 (hi.unionCd.mem_iff.mpr (List.mem_flatMap.mpr ⟨b, hb1, hb2⟩))

/-- Violation of C27: a pair is inserted into one sector at the time of a creation operator `a` of another sector, and
    accepted.  The sector gets the new operator, the global set does not
    (built with `NDEBUG`; with asserts see `C27_accepted_duplicate_debug`). -/
theorem C27_accepted_duplicate_violation (hc : Connects o fl) {junk : ℕ → ℕ → K} {j : ℕ → DM K Cd Co T} {np : ℤ}
    {lab : ℕ → ℕ} {A : Conf Cd Co} {s : PDM K Cd Co T} (h : PReached o fl false junk j np lab A s) {a a' : Cd} {b' : Co}
    (ha : fl.fcd a' < fl.nf) (hb : fl.fc b' < fl.nf) (hs : lab (fl.fc b') = lab (fl.fcd a'))
    (hm : a ∈ A.cds) (hsa : lab (fl.fcd a) ≠ lab (fl.fcd a')) (hta : o.tcd a = o.tcd a') (htb : o.tc b' ∉ A.cs.map o.tc)
    (hd : (Conf.mk (a' :: (A.sec fl lab (lab (fl.fcd a'))).cds) (b' :: (A.sec fl lab (lab (fl.fcd a'))).cs)).Distinct o)
    (hne : (Conf.mk (a' :: (A.sec fl lab (lab (fl.fcd a'))).cds) (b' :: (A.sec fl lab (lab (fl.fcd a'))).cs)).det o ≠ 0) :
    ∃ r s1 s2, PDM.tryUpdate o fl false junk ⟨[], [], [a'], [b']⟩ s = (.ok r, s1) ∧
      PDM.performUpdate o fl false junk s1 = (.ok (), s2) ∧ a' ∉ s2.cd.set ∧ (∃ b ∈ s2.mats, a' ∈ b.cd.set) ∧
      ∀ A', ¬ InStep o fl lab s2 A' := by
  obtain ⟨-, -, m, hl, hg⟩ := h.good hc
  obtain ⟨r, s1, s2, e1, -, e2, e3, e4⟩ := pdup_accept false junk hl hg ha hb hs hm hsa hta htb hd hne
  refine ⟨r, s1, s2, e1, e2 rfl, e3, e4, fun A' hi => ?_⟩
  obtain ⟨b, hb1, hb2⟩ := e4
  exact e3 (hi.unionCd.mem_iff.mpr (List.mem_flatMap.mpr ⟨b, hb1, hb2⟩))

/-- Built with asserts, the same rejection stops the program: the operators of the blocks are more than those of the global
    set (`reconstruct_operator_list_in_actual_order`). -/
theorem C27_rejected_duplicate_debug (hc : Connects o fl) {junk : ℕ → ℕ → K} {j : ℕ → DM K Cd Co T} {np : ℤ}
    {lab : ℕ → ℕ} {A : Conf Cd Co} {s : PDM K Cd Co T} (h : PReached o fl true junk j np lab A s) {a a' : Cd} {b' : Co}
    (ha : fl.fcd a' < fl.nf) (hb : fl.fc b' < fl.nf) (hs : lab (fl.fc b') = lab (fl.fcd a'))
    (hm : a ∈ A.cds) (hsa : lab (fl.fcd a) = lab (fl.fcd a')) (hta : o.tcd a = o.tcd a') (htb : o.tc b' ∉ A.cs.map o.tc) :
    ∃ s1, PDM.tryUpdate o fl true junk ⟨[], [], [a'], [b']⟩ s = (.ok 0, s1) ∧ (PDM.rejectUpdate o true s1).1 = .ub := by
  obtain ⟨-, -, m, hl, hg⟩ := h.good hc
  obtain ⟨s1, s2, e1, e2, -⟩ := pdup_reject true junk hl hg ha hb hs hm hsa hta htb
  exact ⟨s1, e1, e2 rfl⟩

/-- Built with asserts, the same acceptance stops the program. -/
theorem C27_accepted_duplicate_debug (hc : Connects o fl) {junk : ℕ → ℕ → K} {j : ℕ → DM K Cd Co T} {np : ℤ}
    {lab : ℕ → ℕ} {A : Conf Cd Co} {s : PDM K Cd Co T} (h : PReached o fl true junk j np lab A s) {a a' : Cd} {b' : Co}
    (ha : fl.fcd a' < fl.nf) (hb : fl.fc b' < fl.nf) (hs : lab (fl.fc b') = lab (fl.fcd a'))
    (hm : a ∈ A.cds) (hsa : lab (fl.fcd a) ≠ lab (fl.fcd a')) (hta : o.tcd a = o.tcd a') (htb : o.tc b' ∉ A.cs.map o.tc)
    (hd : (Conf.mk (a' :: (A.sec fl lab (lab (fl.fcd a'))).cds) (b' :: (A.sec fl lab (lab (fl.fcd a'))).cs)).Distinct o)
    (hne : (Conf.mk (a' :: (A.sec fl lab (lab (fl.fcd a'))).cds) (b' :: (A.sec fl lab (lab (fl.fcd a'))).cs)).det o ≠ 0) :
    ∃ r s1, PDM.tryUpdate o fl true junk ⟨[], [], [a'], [b']⟩ s = (.ok r, s1) ∧
      (PDM.performUpdate o fl true junk s1).1 = .ub := by
  obtain ⟨-, -, m, hl, hg⟩ := h.good hc
  obtain ⟨r, s1, s2, e1, e2, -⟩ := pdup_accept true junk hl hg ha hb hs hm hsa hta htb hd hne
  exact ⟨r, s1, e1, e2 rfl⟩

/-! ## C60: exact ratios of the full determinant -/

/-- C60: over every history the trials report the ratios of the full time-ordered determinants; afterwards
    `compute_determinant` is the determinant of the configuration, and the matrix that `compute_inverse_matrix` puts
    together is the inverse of the full Green-function matrix in the order of `get_c_ops` and `get_cdagg_ops`; rebuilding
    the inverses changes none of this. -/
theorem C60_full_determinant (hc : Connects o fl) (dbg : Bool) (junk : ℕ → ℕ → K) (j : ℕ → DM K Cd Co T) (np : ℤ) :
    ∃ s0 lab, PDM.create fl dbg j np = .ok s0 ∧ (∀ f < fl.nf, s0.blockOf f = .ok (lab f)) ∧ Sectors fl s0.ns lab ∧
      ∀ l rs A, PHistory dbg o fl s0.ns lab ⟨[], []⟩ l rs A → ∃ s, pplay o fl dbg junk l s0 = (.ok rs, s) ∧
        s.computeDeterminant = A.det o ∧ A.det o ≠ 0 ∧
        s.c.order.Perm A.cs ∧ s.cd.order.Perm A.cds ∧
        IsInvOf s.computeInverse A.cds.length (greenAt o.G s.c.order s.cd.order) ∧
        ∃ s', PDM.rebuild o dbg s = (.ok (), s') ∧ InStep o fl lab s' A ∧ s'.computeDeterminant = A.det o ∧
          IsInvOf s'.computeInverse A.cds.length (greenAt o.G s'.c.order s'.cd.order) := by
  obtain ⟨s0, lab, e0, e1, hs, hz, m, hl, hg⟩ := pcreate_ok hc dbg j np
  refine ⟨s0, lab, e0, e1, hs, fun l rs A hh => ?_⟩
  obtain ⟨s, m', e, g⟩ := pplay_ok dbg junk hl hz hh s0 m hg
  obtain ⟨s', m'', e', g'⟩ := prebuild_ok dbg g
  exact ⟨s, e, g.computeDet hl hz, g.det_ne hl hz, (g.inStep hl).permC, (g.inStep hl).permCd, g.computeInv hl hz,
    s', e', g'.inStep hl, g'.computeDet hl hz, g'.computeInv hl hz⟩

/-- C60 for the constructor from a list of pairs: all of them are inserted (built with asserts, the list
    must not be empty: `C81_empty_list_violation`). -/
theorem C60_from_list (hc : Connects o fl) (dbg : Bool) (junk : ℕ → ℕ → K) (j : ℕ → DM K Cd Co T) (np : ℤ)
    {ps : List (Cd × Co)} {s0 : PDM K Cd Co T} {lab : ℕ → ℕ} (h0 : PDM.create fl dbg j np = .ok s0)
    (hb : ∀ f < fl.nf, s0.blockOf f = .ok (lab f))
    (hv : PValid o fl s0.ns lab ⟨[], []⟩ ⟨[], [], ps.map Prod.fst, ps.map Prod.snd⟩ ⟨ps.map Prod.fst, ps.map Prod.snd⟩)
    (hne : (Conf.mk (ps.map Prod.fst) (ps.map Prod.snd)).det o ≠ 0) (hps : dbg = true → ps ≠ []) :
    ∃ s, PDM.createWith o fl dbg junk j np ps = .ok s ∧ InStep o fl lab s ⟨ps.map Prod.fst, ps.map Prod.snd⟩ ∧
      s.computeDeterminant = (Conf.mk (ps.map Prod.fst) (ps.map Prod.snd)).det o := by
  obtain ⟨hs, hz, m, hl, hg⟩ := pcreate_lab hc h0 hb
  obtain ⟨s1, e1, e2, -⟩ := pvalid_ok dbg junk hl hz hg hv (by simp)
  obtain ⟨s2, m', e3, g⟩ := e2 hne
  have hs2 := psanity_ok dbg hl g (fun hd => by simpa using hps hd)
  refine ⟨s2, ?_, g.inStep hl, g.computeDet hl hz⟩
  unfold PDM.createWith
  rw [h0, Res.bind_ok, Act.bind_ok e1, Act.bind_ok (e3.trans hs2), hs2]

/-! ## Concrete cases that meet the hypotheses -/

section examples

/-- Operators are pairs of a flavor and a time; two flavors that are not connected; `G = 2` at distance one, else 1. -/
def sysP : OpSys ℚ (ℕ × ℕ) (ℕ × ℕ) ℕ :=
  ⟨Prod.snd, Prod.snd, fun b a => if b.1 = a.1 then (if b.2 = a.2 + 1 then 2 else 1) else 0⟩

def flP : FlSys (ℕ × ℕ) (ℕ × ℕ) := ⟨Prod.fst, Prod.fst, 2, fun _ _ => false⟩

theorem connP : Connects sysP flP := ⟨fun _ _ _ _ => rfl, fun b a _ _ h _ => if_neg h⟩

theorem sectorsP {n : ℕ} {lab : ℕ → ℕ} (h : Sectors flP n lab) : lab 0 ≠ lab 1 ∧ ∀ k < n, k = lab 0 ∨ k = lab 1 := by
  constructor
  · intro e
    have h' := (h.same 0 1 (by decide) (by decide)).mp e
    have : ∀ {a b : ℕ}, Relation.EqvGen (fun a b => a < flP.nf ∧ b < flP.nf ∧ flP.conn a b = true) a b → a = b := by
      intro a b hab
      induction hab with
      | rel a b hab => exact absurd hab.2.2 (by simp [flP])
      | refl a => rfl
      | symm a b _ ih => exact ih.symm
      | trans a b c _ _ i1 i2 => exact i1.trans i2
    exact absurd (this h') (by decide)
  · intro k hk
    obtain ⟨f, hf, rfl⟩ := (h.onto k).mp hk
    have hf : f < 2 := hf
    interval_cases f
    · exact Or.inl rfl
    · exact Or.inr rfl

/-- Two pairs, one per flavor, interleaved: creation operators at times 0 and 4, annihilation operators at times 3 and 1. -/
theorem validP {n : ℕ} {lab : ℕ → ℕ} (h : Sectors flP n lab) :
    PValid sysP flP n lab ⟨[], []⟩ ⟨[], [], [(0, 0), (1, 4)], [(0, 3), (1, 1)]⟩ ⟨[(0, 0), (1, 4)], [(0, 3), (1, 1)]⟩ := by
  obtain ⟨h01, hk⟩ := sectorsP h
  refine ⟨⟨?_, ?_, ⟨⟨[], []⟩, by simp, by simp, by simp, by simp⟩, by decide, by decide⟩, fun k hkn => Or.inl ?_⟩
  · decide
  · decide
  · rcases hk k hkn with rfl | rfl
    · simp only [Conf.sec, Change.sec, flP, List.filter, decide_true, h01.symm, decide_false]
      exact ⟨Or.inl ⟨rfl, rfl⟩, ⟨⟨[], []⟩, ⟨by simp, by simp, by simp, by simp⟩, fun hm => absurd rfl hm.1⟩, by unfold Conf.Distinct; decide⟩
    · simp only [Conf.sec, Change.sec, flP, List.filter, decide_true, h01, decide_false]
      exact ⟨Or.inl ⟨rfl, rfl⟩, ⟨⟨[], []⟩, ⟨by simp, by simp, by simp, by simp⟩, fun hm => absurd rfl hm.1⟩, by unfold Conf.Distinct; decide⟩

theorem detP : (Conf.mk [(0, 0), (1, 4)] [(0, 3), (1, 1)]).det sysP = -1 := by
  rw [det2 _ (a := (0, 0)) (a' := (1, 4)) (b := (1, 1)) (b' := (0, 3)) (by decide) (by decide)]
  norm_num [sysP]

/-- An insertion that would leave both sectors uneven is rejected, then the pair of the first flavor is removed. -/
theorem historyP {dbg : Bool} {n : ℕ} {lab : ℕ → ℕ} (h : Sectors flP n lab) :
    PHistory dbg sysP flP n lab ⟨[], []⟩ [(⟨[], [], [(0, 0), (1, 4)], [(0, 3), (1, 1)]⟩, true)] [-1]
      ⟨[(0, 0), (1, 4)], [(0, 3), (1, 1)]⟩ ∧
    PHistory dbg sysP flP n lab ⟨[], []⟩ [(⟨[], [], [(0, 0), (1, 4)], [(0, 3), (1, 1)]⟩, true),
      (⟨[], [], [(0, 6)], [(1, 7)]⟩, false), (⟨[(0, 0)], [(0, 3)], [], []⟩, true)] [-1, 0, -1] ⟨[(1, 4)], [(1, 1)]⟩ := by
  obtain ⟨h01, hk⟩ := sectorsP h
  have h1 := PHistory.accept (dbg := dbg) _ _ _ [] [] _ (validP h) rfl (by rw [detP]; norm_num) (fun _ => by simp) (.done _ _ ⟨.refl _, .refl _⟩)
  rw [detP, det0] at h1
  norm_num at h1
  have v3 : PValid sysP flP n lab ⟨[(0, 0), (1, 4)], [(0, 3), (1, 1)]⟩ ⟨[(0, 0)], [(0, 3)], [], []⟩ ⟨[(1, 4)], [(1, 1)]⟩ := by
    refine ⟨⟨by simp, by simp, ⟨⟨[(1, 4)], [(1, 1)]⟩, List.Perm.swap _ _ _, List.Perm.swap _ _ _, by simp, by simp⟩, by decide, by decide⟩,
      fun k hkn => Or.inl ?_⟩
    rcases hk k hkn with rfl | rfl
    · simp only [Conf.sec, Change.sec, flP, List.filter, decide_true, h01.symm, decide_false]
      exact ⟨Or.inl ⟨rfl, rfl⟩, ⟨⟨[], []⟩, ⟨by simp, by simp, by simp, by simp⟩, fun hm => absurd rfl hm.2.2.1⟩,
        by unfold Conf.Distinct; decide⟩
    · simp only [Conf.sec, Change.sec, flP, List.filter, decide_true, h01, decide_false]
      exact ⟨Or.inl ⟨rfl, rfl⟩, ⟨⟨[(1, 4)], [(1, 1)]⟩, ⟨by simp, by simp, by simp, by simp⟩, fun hm => absurd rfl hm.1⟩,
        by unfold Conf.Distinct; decide⟩
  have v2 : PGivenUp sysP flP n lab ⟨[(0, 0), (1, 4)], [(0, 3), (1, 1)]⟩ ⟨[], [], [(0, 6)], [(1, 7)]⟩
      ⟨[(0, 0), (1, 4), (0, 6)], [(0, 3), (1, 1), (1, 7)]⟩ := by
    have hu : ∀ k < n, ((⟨[], [], [(0, 6)], [(1, 7)]⟩ : Change (ℕ × ℕ) (ℕ × ℕ)).sec flP lab k).Uneven := by
      intro k hkn
      rcases hk k hkn with rfl | rfl
      · simp only [Change.Uneven, Change.sec, flP, List.filter, decide_true, h01.symm, decide_false]; decide
      · simp only [Change.Uneven, Change.sec, flP, List.filter, decide_true, h01, decide_false]; decide
    refine ⟨⟨by decide, by decide, ⟨⟨[(0, 0), (1, 4)], [(0, 3), (1, 1)]⟩, by simp, by simp, by simp, by simp⟩, by decide, by decide⟩,
      fun k hkn => Or.inr (Or.inl (hu k hkn)), lab 0, ?_, ?_⟩
    · exact (h.onto _).mpr ⟨0, by decide, rfl⟩
    · exact Or.inl (hu _ ((h.onto _).mpr ⟨0, by decide, rfl⟩))
  have h3 := PHistory.accept (dbg := dbg) _ _ _ [] [] _ v3 rfl (by rw [det1]; simp [sysP]) (fun _ => by simp) (.done _ _ ⟨.refl _, .refl _⟩)
  have h2 := PHistory.accept (dbg := dbg) _ _ _ _ _ _ (validP h) rfl (by rw [detP]; norm_num) (fun _ => by simp) (PHistory.gaveUp _ _ _ _ _ _ v2 h3)
  rw [detP, det0, det1] at h2
  norm_num [sysP] at h2
  exact ⟨h1, h2⟩

/-- A state that meets the hypotheses of the violations. -/
theorem reachedP (dbg : Bool) (junk : ℕ → ℕ → ℚ) (j : ℕ → DM ℚ (ℕ × ℕ) (ℕ × ℕ) ℕ) (np : ℤ) :
    ∃ lab s, lab 0 ≠ lab 1 ∧ PReached sysP flP dbg junk j np lab ⟨[(0, 0), (1, 4)], [(0, 3), (1, 1)]⟩ s := by
  obtain ⟨s0, lab, e0, e1, hs, hr⟩ := C60_full_determinant connP dbg junk j np
  obtain ⟨s, e, -⟩ := hr _ _ _ (historyP hs).1
  exact ⟨lab, s, (sectorsP hs).1, s0, _, _, e0, e1, (historyP hs).1, e⟩

/-- C60 in this case. -/
example (dbg : Bool) (junk : ℕ → ℕ → ℚ) (j : ℕ → DM ℚ (ℕ × ℕ) (ℕ × ℕ) ℕ) (np : ℤ) :
    ∃ s0 s, PDM.create flP dbg j np = .ok s0 ∧ pplay sysP flP dbg junk [(⟨[], [], [(0, 0), (1, 4)], [(0, 3), (1, 1)]⟩, true),
      (⟨[], [], [(0, 6)], [(1, 7)]⟩, false), (⟨[(0, 0)], [(0, 3)], [], []⟩, true)] s0 = (.ok [-1, 0, -1], s) ∧
      s.computeDeterminant = 1 := by
  obtain ⟨s0, lab, e0, e1, hs, hr⟩ := C60_full_determinant connP dbg junk j np
  obtain ⟨s, e, hd, -⟩ := hr _ _ _ (historyP hs).2
  refine ⟨s0, s, e0, e, ?_⟩
  rw [hd, det1]; simp [sysP]

/-- The operator at time 0 disappears from the global set. -/
example (junk : ℕ → ℕ → ℚ) (j : ℕ → DM ℚ (ℕ × ℕ) (ℕ × ℕ) ℕ) (np : ℤ) :
    ∃ s s1 s2 : PDM ℚ (ℕ × ℕ) (ℕ × ℕ) ℕ, PDM.tryUpdate sysP flP false junk ⟨[], [], [(0, 0)], [(0, 7)]⟩ s = (.ok 0, s1) ∧
      PDM.rejectUpdate sysP false s1 = (.ok (), s2) ∧ (0, 0) ∉ s2.cd.set := by
  obtain ⟨lab, s, -, h⟩ := reachedP false junk j np
  obtain ⟨-, s1, s2, e1, e2, e3, -⟩ := C27_rejected_duplicate_violation connP h (a := (0, 0)) (a' := (0, 0)) (b' := (0, 7))
    (by decide) (by decide) rfl (by decide) rfl rfl (by decide)
  exact ⟨s, s1, s2, e1, e2, e3⟩

/-- The operator of the second flavor at time 0 does not get into the global set. -/
example (junk : ℕ → ℕ → ℚ) (j : ℕ → DM ℚ (ℕ × ℕ) (ℕ × ℕ) ℕ) (np : ℤ) :
    ∃ (r : ℚ) (s s1 s2 : PDM ℚ (ℕ × ℕ) (ℕ × ℕ) ℕ), PDM.tryUpdate sysP flP false junk ⟨[], [], [(1, 0)], [(1, 5)]⟩ s = (.ok r, s1) ∧
      PDM.performUpdate sysP flP false junk s1 = (.ok (), s2) ∧ (1, 0) ∉ s2.cd.set := by
  obtain ⟨lab, s, h01, h⟩ := reachedP false junk j np
  have hsec : (Conf.mk [(0, 0), (1, 4)] [(0, 3), (1, 1)]).sec flP lab (lab 1) = ⟨[(1, 4)], [(1, 1)]⟩ := by
    simp only [Conf.sec, flP, List.filter, decide_true, h01, decide_false]
  obtain ⟨r, s1, s2, e1, e2, e3, -⟩ := C27_accepted_duplicate_violation connP h (a := (0, 0)) (a' := (1, 0)) (b' := (1, 5))
    (by decide) (by decide) rfl (by decide) h01 rfl (by decide) (by rw [show lab (flP.fcd (1, 0)) = lab 1 from rfl, hsec]; unfold Conf.Distinct; decide) (by
      rw [show lab (flP.fcd (1, 0)) = lab 1 from rfl, hsec,
        det2 _ (a := (1, 0)) (a' := (1, 4)) (b := (1, 1)) (b' := (1, 5)) (by decide) (by decide)]
      norm_num [sysP])
  exact ⟨r, s, s1, s2, e1, e2, e3⟩

/-- With asserts the program stops. -/
example (junk : ℕ → ℕ → ℚ) (j : ℕ → DM ℚ (ℕ × ℕ) (ℕ × ℕ) ℕ) (np : ℤ) :
    ∃ s s1 : PDM ℚ (ℕ × ℕ) (ℕ × ℕ) ℕ, PDM.tryUpdate sysP flP true junk ⟨[], [], [(0, 0)], [(0, 7)]⟩ s = (.ok 0, s1) ∧
      (PDM.rejectUpdate sysP true s1).1 = .ub := by
  obtain ⟨lab, s, -, h⟩ := reachedP true junk j np
  obtain ⟨s1, e1, e2⟩ := C27_rejected_duplicate_debug connP h (a := (0, 0)) (a' := (0, 0)) (b' := (0, 7))
    (by decide) (by decide) rfl (by decide) rfl rfl (by decide)
  exact ⟨s, s1, e1, e2⟩

/-- With asserts the program stops. -/
example (junk : ℕ → ℕ → ℚ) (j : ℕ → DM ℚ (ℕ × ℕ) (ℕ × ℕ) ℕ) (np : ℤ) :
    ∃ (r : ℚ) (s s1 : PDM ℚ (ℕ × ℕ) (ℕ × ℕ) ℕ), PDM.tryUpdate sysP flP true junk ⟨[], [], [(1, 0)], [(1, 5)]⟩ s = (.ok r, s1) ∧
      (PDM.performUpdate sysP flP true junk s1).1 = .ub := by
  obtain ⟨lab, s, h01, h⟩ := reachedP true junk j np
  have hsec : (Conf.mk [(0, 0), (1, 4)] [(0, 3), (1, 1)]).sec flP lab (lab 1) = ⟨[(1, 4)], [(1, 1)]⟩ := by
    simp only [Conf.sec, flP, List.filter, decide_true, h01, decide_false]
  obtain ⟨r, s1, e1, e2⟩ := C27_accepted_duplicate_debug connP h (a := (0, 0)) (a' := (1, 0)) (b' := (1, 5))
    (by decide) (by decide) rfl (by decide) h01 rfl (by decide) (by rw [show lab (flP.fcd (1, 0)) = lab 1 from rfl, hsec]; unfold Conf.Distinct; decide) (by
      rw [show lab (flP.fcd (1, 0)) = lab 1 from rfl, hsec,
        det2 _ (a := (1, 0)) (a' := (1, 4)) (b := (1, 1)) (b' := (1, 5)) (by decide) (by decide)]
      norm_num [sysP])
  exact ⟨r, s, s1, e1, e2⟩

example (dbg : Bool) (junk : ℕ → ℕ → ℚ) (j : ℕ → DM ℚ (ℕ × ℕ) (ℕ × ℕ) ℕ) (np : ℤ) :
    ∃ s, PDM.createWith sysP flP dbg junk j np [((0, 0), (0, 3)), ((1, 4), (1, 1))] = .ok s ∧ s.computeDeterminant = -1 := by
  obtain ⟨s0, lab, e0, e1, hs, -⟩ := C60_full_determinant connP dbg junk j np
  obtain ⟨s, e, -, hd⟩ := C60_from_list connP dbg junk j np (ps := [((0, 0), (0, 3)), ((1, 4), (1, 1))]) e0 e1 (validP hs)
    (by show (Conf.mk [(0, 0), (1, 4)] [(0, 3), (1, 1)]).det sysP ≠ 0; rw [detP]; norm_num) (fun _ => by simp)
  exact ⟨s, e, hd.trans detP⟩

end examples

end CTInt
