import Verif.Proofs.DetChecked
import Verif.Props.DetMatrix
import Verif.Props.Partitioned

/-!
# C81: the determinant matrices built with asserts
-/

set_option linter.all false

namespace CTInt

variable {K Cd Co T : Type} [Field K] [DecidableEq K] [LinearOrder T] {o : OpSys K Cd Co T} {fl : FlSys Cd Co}

/-- C81: the asserts and `sanity_check` only look.  Whatever the object and whatever the client does: if the calls come back
    in the build with asserts, the build without asserts gives the same results and leaves the same members. -/
theorem C81_only_checks (junk : ℕ → ℕ → K) (l : List (Change Cd Co × Bool)) {s s' : DM K Cd Co T} {rs : List K}
    (h : play o true junk l s = (.ok rs, s')) : play o false junk l s = (.ok rs, s') :=
  checked_play o junk l s rs s' h

/-- The same for the determinant matrix cut into sectors, for its constructors and for `rebuild_inverse_matrix`. -/
theorem C81_only_checks_sectors (junk : ℕ → ℕ → K) :
    (∀ (l : List (Change Cd Co × Bool)) (s s' : PDM K Cd Co T) (rs : List K), pplay o fl true junk l s = (.ok rs, s') →
      pplay o fl false junk l s = (.ok rs, s')) ∧
    (∀ (s s' : PDM K Cd Co T), PDM.rebuild o true s = (.ok (), s') → PDM.rebuild o false s = (.ok (), s')) ∧
    (∀ (j : ℕ → DM K Cd Co T) (np : ℤ) (s : PDM K Cd Co T), PDM.create fl true j np = .ok s → PDM.create fl false j np = .ok s) ∧
    ∀ (j : ℕ → DM K Cd Co T) (np : ℤ) (ops : List (Cd × Co)) (s : PDM K Cd Co T),
      PDM.createWith o fl true junk j np ops = .ok s → PDM.createWith o fl false junk j np ops = .ok s :=
  ⟨fun l s s' rs h => checked_pplay o fl junk l s rs s' h, fun s s' h => PDM.checked_rebuild o s () s' h,
    fun j np s h => PDM.checked_create fl h, fun j np ops s h => PDM.checked_createWith o fl h⟩

/-- C81, `DeterminantMatrix`: over every history no assert fails, and the ratios and the members are those of the build
    without asserts; neither does one fail in `rebuild_inverse_matrix` afterwards. -/
theorem C81_same_run (junk : ℕ → ℕ → K) (j : DM K Cd Co T) {l : List (Change Cd Co × Bool)} {rs : List K} {A : Conf Cd Co}
    (h : History o ⟨[], []⟩ l rs A) :
    ∃ s s', play o true junk l (DM.create j) = (.ok rs, s) ∧ play o false junk l (DM.create j) = (.ok rs, s) ∧
      ShowsConf o s A ∧ DM.rebuild o true s = (.ok (), s') ∧ DM.rebuild o false s = (.ok (), s') ∧ ShowsConf o s' A := by
  obtain ⟨s, e, hs⟩ := C24_histories_partial true junk j h
  obtain ⟨s', e', hs'⟩ := C24_rebuild true junk (s := s) ⟨l, rs, h, e⟩
  exact ⟨s, s', e, C81_only_checks junk l e, hs, e', DM.checked_rebuild o _ _ _ e', hs'.2⟩

/-- C81, the matrix cut into sectors: over every history in which no accepted change leaves the matrix without operators, no
    assert fails, and the ratios and the members are those of the build without asserts.  Partial: a matrix without
    operators is allowed, but the build with asserts then runs past the end of a list (`C81_emptied_violation`). -/
theorem C81_same_run_sectors_partial (hc : Connects o fl) (junk : ℕ → ℕ → K) (j : ℕ → DM K Cd Co T) (np : ℤ) :
    ∃ s0 lab, PDM.create fl true j np = .ok s0 ∧ PDM.create fl false j np = .ok s0 ∧ (∀ f < fl.nf, s0.blockOf f = .ok (lab f)) ∧
      Sectors fl s0.ns lab ∧
      ∀ l rs A, PHistory true o fl s0.ns lab ⟨[], []⟩ l rs A → ∃ s s', pplay o fl true junk l s0 = (.ok rs, s) ∧
        pplay o fl false junk l s0 = (.ok rs, s) ∧ InStep o fl lab s A ∧
        PDM.rebuild o true s = (.ok (), s') ∧ PDM.rebuild o false s = (.ok (), s') ∧ InStep o fl lab s' A := by
  obtain ⟨s0, lab, e0, e1, hs, hz, m, hl, hg⟩ := pcreate_ok hc true j np
  refine ⟨s0, lab, e0, PDM.checked_create fl e0, e1, hs, fun l rs A hh => ?_⟩
  obtain ⟨s, m', e, g⟩ := pplay_ok true junk hl hz hh s0 m hg
  obtain ⟨s', m'', e', g'⟩ := prebuild_ok true g
  exact ⟨s, s', e, checked_pplay o fl junk l _ _ _ e, g.inStep hl, e', PDM.checked_rebuild o _ _ _ e', g'.inStep hl⟩

/-- Violation of C81: a change is accepted that takes out the last operators.  Built without asserts this is done; built
    with asserts `sanity_check` sorts a list without elements, and `comb_sort` moves an iterator past its end. -/
theorem C81_emptied_violation (hc : Connects o fl) {junk : ℕ → ℕ → K} {j : ℕ → DM K Cd Co T} {np : ℤ} {lab : ℕ → ℕ}
    {A : Conf Cd Co} {s : PDM K Cd Co T} (h : PReached o fl true junk j np lab A s) {ch : Change Cd Co}
    (hv : PValid o fl s.ns lab A ch ⟨[], []⟩) :
    ∃ r s1 s2, PDM.tryUpdate o fl true junk ch s = (.ok r, s1) ∧ (PDM.performUpdate o fl true junk s1).1 = .ub ∧
      PDM.tryUpdate o fl false junk ch s = (.ok r, s1) ∧ PDM.performUpdate o fl false junk s1 = (.ok (), s2) ∧
      InStep o fl lab s2 ⟨[], []⟩ := by
  obtain ⟨hs, hz, m, hl, hg⟩ := h.good hc
  have hne : (Conf.mk ([] : List Cd) ([] : List Co)).det o ≠ 0 := by simp [Conf.det, detN, toM]
  obtain ⟨s1, e1, e2, -⟩ := pvalid_ok true junk hl hz hg hv rfl
  obtain ⟨s2, m2, e3, g⟩ := e2 hne
  have e1' := PDM.checked_try o fl junk ch _ _ _ e1
  obtain ⟨s1', f1, f2, -⟩ := pvalid_ok false junk hl hz hg hv rfl
  obtain ⟨s3, m3, f3, g3⟩ := f2 hne
  rw [e1'] at f1
  obtain rfl : s1 = s1' := (Prod.mk.inj f1).2
  refine ⟨_, s1, s3, e1, ?_, e1', f3, g3.inStep hl⟩
  rw [e3]
  exact psanity_empty hl g rfl

/-- Violation of C81: the constructor is given an empty list of pairs. -/
theorem C81_empty_list_violation (hc : Connects o fl) (junk : ℕ → ℕ → K) (j : ℕ → DM K Cd Co T) (np : ℤ) :
    PDM.createWith o fl true junk j np [] = .ub ∧ ∃ s, PDM.createWith o fl false junk j np [] = .ok s := by
  obtain ⟨s0, lab, e0, e1, hs, hz, m, hl, hg⟩ := pcreate_ok hc true j np
  have hne : (Conf.mk ([] : List Cd) ([] : List Co)).det o ≠ 0 := by simp [Conf.det, detN, toM]
  have hv : PValid o fl s0.ns lab ⟨[], []⟩ ⟨[], [], [], []⟩ ⟨[], []⟩ := by
    refine ⟨⟨by simp, by simp, ⟨⟨[], []⟩, by simp, by simp, by simp, by simp⟩, by simp, by simp⟩, fun k hk => Or.inl ?_⟩
    simp only [Conf.sec, Change.sec, List.filter_nil]
    exact ⟨Or.inl ⟨rfl, rfl⟩, ⟨⟨[], []⟩, ⟨by simp, by simp, by simp, by simp⟩, fun hm => absurd rfl hm.1⟩, by simp [Conf.Distinct]⟩
  constructor
  · obtain ⟨s1, f1, f2, -⟩ := pvalid_ok true junk hl hz hg hv rfl
    obtain ⟨s2, m2, f3, g⟩ := f2 hne
    have hu := psanity_empty hl g rfl
    unfold PDM.createWith
    rw [e0, Res.bind_ok]
    simp only [List.map_nil]
    rw [Act.bind_ok f1, Act.run_bind, f3]
    rcases hq : PDM.sanityCheck o fl true s2 with ⟨r, s3⟩
    rw [hq] at hu
    simp only at hu
    rw [hu]
  · obtain ⟨s, e, -⟩ := C60_from_list hc false junk j np (ps := []) (PDM.checked_create fl e0) e1 hv hne (by simp)
    exact ⟨s, e⟩

/-! ## Concrete cases that meet the hypotheses -/

section examples

/-- Insertions, a rejected trial and a replacement (`exHistory`), in both builds. -/
example (junk : ℕ → ℕ → ℚ) (j : DM ℚ ℕ ℕ ℕ) : ∃ l rs A s, 3 ≤ l.length ∧ play sysA true junk l (DM.create j) = (.ok rs, s) ∧
    play sysA false junk l (DM.create j) = (.ok rs, s) ∧ ShowsConf sysA s A := by
  obtain ⟨s, s', e1, e2, e3, -⟩ := C81_same_run junk j exHistory
  exact ⟨_, _, _, s, by simp, e1, e2, e3⟩

/-- Two sectors, in both builds. -/
example (junk : ℕ → ℕ → ℚ) (j : ℕ → DM ℚ (ℕ × ℕ) (ℕ × ℕ) ℕ) (np : ℤ) : ∃ s0 s,
    pplay sysP flP true junk [(⟨[], [], [(0, 0), (1, 4)], [(0, 3), (1, 1)]⟩, true),
      (⟨[], [], [(0, 6)], [(1, 7)]⟩, false), (⟨[(0, 0)], [(0, 3)], [], []⟩, true)] s0 = (.ok [-1, 0, -1], s) ∧
    pplay sysP flP false junk [(⟨[], [], [(0, 0), (1, 4)], [(0, 3), (1, 1)]⟩, true),
      (⟨[], [], [(0, 6)], [(1, 7)]⟩, false), (⟨[(0, 0)], [(0, 3)], [], []⟩, true)] s0 = (.ok [-1, 0, -1], s) := by
  obtain ⟨s0, lab, e0, e1, e2, hs, hr⟩ := C81_same_run_sectors_partial connP junk j np
  obtain ⟨s, s', f1, f2, -⟩ := hr _ _ _ (historyP hs).2
  exact ⟨s0, s, f1, f2⟩

/-- The two pairs are inserted and taken out again: with asserts the program runs past the end of a list. -/
example (junk : ℕ → ℕ → ℚ) (j : ℕ → DM ℚ (ℕ × ℕ) (ℕ × ℕ) ℕ) (np : ℤ) : ∃ r s s1 s2,
    PDM.tryUpdate sysP flP true junk ⟨[(0, 0), (1, 4)], [(0, 3), (1, 1)], [], []⟩ s = (.ok r, s1) ∧
    (PDM.performUpdate sysP flP true junk s1).1 = .ub ∧ PDM.performUpdate sysP flP false junk s1 = (.ok (), s2) := by
  obtain ⟨s0, lab, e0, -, e1, hs, hr⟩ := C81_same_run_sectors_partial connP junk j np
  obtain ⟨s, s', f1, f2, hi, -⟩ := hr _ _ _ (historyP hs).1
  have hre : PReached sysP flP true junk j np lab ⟨[(0, 0), (1, 4)], [(0, 3), (1, 1)]⟩ s := ⟨s0, _, _, e0, e1, (historyP hs).1, f1⟩
  obtain ⟨hs', -⟩ := hre.good connP
  obtain ⟨h01, hk⟩ := sectorsP hs'
  have hv : PValid sysP flP s.ns lab ⟨[(0, 0), (1, 4)], [(0, 3), (1, 1)]⟩ ⟨[(0, 0), (1, 4)], [(0, 3), (1, 1)], [], []⟩ ⟨[], []⟩ := by
    refine ⟨⟨by simp, by simp, ⟨⟨[], []⟩, by simp, by simp, by simp, by simp⟩, by simp, by simp⟩, fun k hkn => Or.inl ?_⟩
    rcases hk k hkn with rfl | rfl
    · simp only [Conf.sec, Change.sec, flP, List.filter, decide_true, h01.symm, decide_false]
      exact ⟨Or.inl ⟨rfl, rfl⟩, ⟨⟨[], []⟩, ⟨by simp, by simp, by simp, by simp⟩, fun hm => absurd rfl hm.2.2.1⟩,
        by unfold Conf.Distinct; decide⟩
    · simp only [Conf.sec, Change.sec, flP, List.filter, decide_true, h01, decide_false]
      exact ⟨Or.inl ⟨rfl, rfl⟩, ⟨⟨[], []⟩, ⟨by simp, by simp, by simp, by simp⟩, fun hm => absurd rfl hm.2.2.1⟩,
        by unfold Conf.Distinct; decide⟩
  obtain ⟨r, s1, s2, g1, g2, g3, g4, -⟩ := C81_emptied_violation connP hre hv
  exact ⟨r, s, s1, s2, g1, g2, g4⟩

end examples

end CTInt
