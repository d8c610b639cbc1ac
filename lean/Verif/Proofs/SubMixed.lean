import Verif.Proofs.SubTry
import Verif.Spec.Machine

/-!
# Trials that on one flavor both leave and restore batch-start fields
-/

set_option linter.all false

open Matrix

namespace CTInt

variable {K : Type} [RCLike K] [DecidableEq K]
variable {c : Ctx K} {s : Sub K} {pos : List ℕ} {spins : List ℤ}

/-- The field half way, by pair. -/
noncomputable def curM (c : Ctx K) (vs0 vs vs' : List Vert) (vi : VInfo) : K :=
  if curF c.NI c.tbl vs' vi = curF c.NI c.tbl vs0 vi then curF c.NI c.tbl vs0 vi else curF c.NI c.tbl vs vi

theorem midRows_eq {vs0 vs vs' : List Vert} (h : List.Forall₂ SameVertex vs0 vs) (h' : List.Forall₂ SameVertex vs0 vs')
    (nd0 : (vs0.map Vert.uid).Nodup) (fl : ℕ) :
    midRows c.NI c.tbl vs0 vs vs' fl =
      (rowsOf c.NI c.tbl vs0 fl).map fun x => { x with al := curM c vs0 vs vs' x.vi } := by
  have nd : (vs.map Vert.uid).Nodup := by rw [Forall₂_uids h]; exact nd0
  have nd' : (vs'.map Vert.uid).Nodup := by rw [Forall₂_uids h']; exact nd0
  have h0 : List.Forall₂ SameVertex vs0 vs0 := List.forall₂_same.mpr fun v _ => SameVertex.refl v
  have e0 := map_rowsOf_cur h0 (fun v hv t r => curF_mem (NI := c.NI) (tbl := c.tbl) nd0 hv t r) fl
  have e1 := map_rowsOf_cur h (fun v hv t r => curF_mem (NI := c.NI) (tbl := c.tbl) nd hv t r) fl
  have e2 := map_rowsOf_cur h' (fun v hv t r => curF_mem (NI := c.NI) (tbl := c.tbl) nd' hv t r) fl
  unfold midRows
  rw [← e1, ← e2]
  nth_rewrite 1 [← e0]
  generalize rowsOf c.NI c.tbl vs0 fl = l
  induction l with
  | nil => rfl
  | cons x l ih => simp only [List.map_cons, List.zip_cons_cons, List.zipWith_cons_cons, ih]; rfl

/-- det A half way, in the order of the matrix. -/
theorem detMid_eq {A : InvA K} {n : ℕ} (hA : A.Aligned n) {vs0 vs vs' : List Vert} {fl : ℕ}
    (h : List.Forall₂ SameVertex vs0 vs) (h' : List.Forall₂ SameVertex vs0 vs') (nd0 : (vs0.map Vert.uid).Nodup)
    (hp : A.rowList.Perm (rowsOf c.NI c.tbl vs0 fl)) :
    detAF c.NI c.G0 A n (fun i => curM c vs0 vs vs' (A.vi.getD i default)) =
      detMid c.NI c.G0 c.tbl vs0 vs vs' fl := by
  have e : (A.rowCur fun i => curM c vs0 vs vs' (A.vi.getD i default)) =
      A.rowList.map fun x => { x with al := curM c vs0 vs vs' x.vi } := by
    unfold InvA.rowCur InvA.rowList
    rw [List.map_map]; rfl
  unfold detMid
  rw [detAF_rows c.NI c.G0 hA, e, midRows_eq h h' nd0]
  exact detA_perm c.NI c.G0 (hp.map _)

/-- The batch-start field of a row. -/
theorem al_eq_cur (h : TryInv c s) {fl : ℕ} (hfl : fl < c.nf) {i : ℕ} (hi : i < (s.invA fl).cr.length) :
    (s.invA fl).al.getD i 0 = c.cur (s.invA fl) s.verts0 i := by
  have hm : (s.invA fl).rowAt i ∈ (s.invA fl).rowList := List.mem_map_of_mem (List.mem_range.mpr hi)
  rw [(h.rows fl hfl).mem_iff] at hm
  obtain ⟨v0, hv0, r, hr, hf, e⟩ := mem_rowsOf.mp hm
  have nd0 : (s.verts0.map Vert.uid).Nodup := by rw [← Forall₂_uids h.same]; exact h.uids
  have evi : (s.invA fl).vi.getD i default = ⟨v0.type, r, v0.uid⟩ := congrArg OpRow.vi e
  have eal : (s.invA fl).al.getD i 0 = fieldOf c.NI c.tbl v0 r := congrArg OpRow.al e
  unfold Ctx.cur
  rw [evi, curF_mem nd0 hv0, eal]

/-- A row comes from a vertex of the current configuration. -/
theorem row_vertex (h : TryInv c s) {fl : ℕ} (hfl : fl < c.nf) {i : ℕ} (hi : i < (s.invA fl).cr.length) :
    ∃ p < s.verts.length, ∃ r < (termOf c.tbl (s.verts.getD p default)).rank,
      flavorOf c.tbl (s.verts.getD p default) r = fl ∧
      c.cur (s.invA fl) s.verts i = fieldOf c.NI c.tbl (s.verts.getD p default) r ∧
      (s.invA fl).al.getD i 0 = fieldOf c.NI c.tbl (s.verts0.getD p default) r ∧
      ∀ vs', List.Forall₂ SameVertex s.verts0 vs' →
        c.cur (s.invA fl) vs' i = fieldOf c.NI c.tbl (vs'.getD p default) r := by
  have hm : (s.invA fl).rowAt i ∈ (s.invA fl).rowList := List.mem_map_of_mem (List.mem_range.mpr hi)
  rw [(h.rows fl hfl).mem_iff] at hm
  obtain ⟨v0, hv0, r, hr, hf, e⟩ := mem_rowsOf.mp hm
  obtain ⟨p, hp, rfl⟩ := List.mem_iff_getElem.mp hv0
  have hpl : p < s.verts.length := by rw [← h.same.length_eq]; exact hp
  have hsame := forall₂_getD h.same hpl
  rw [List.getD_eq_getElem _ _ hp] at hsame
  have nd0 : (s.verts0.map Vert.uid).Nodup := by rw [← Forall₂_uids h.same]; exact h.uids
  have evi : (s.invA fl).vi.getD i default = ⟨s.verts0[p].type, r, s.verts0[p].uid⟩ := congrArg OpRow.vi e
  have hall : ∀ vs', List.Forall₂ SameVertex s.verts0 vs' →
      c.cur (s.invA fl) vs' i = fieldOf c.NI c.tbl (vs'.getD p default) r := by
    intro vs' hs'
    have hpl' : p < vs'.length := by rw [← hs'.length_eq]; exact hp
    have nd' : (vs'.map Vert.uid).Nodup := by rw [Forall₂_uids hs']; exact nd0
    have hsm := forall₂_getD hs' hpl'
    rw [List.getD_eq_getElem _ _ hp] at hsm
    unfold Ctx.cur
    rw [evi, ← hsm.uid, curF_mem nd' (getD_mem hpl' default)]
  refine ⟨p, hpl, r, by rw [hsame.term]; exact hr, by rw [hsame.flavor]; exact hf, hall _ h.same, ?_, hall⟩
  rw [al_eq_cur h hfl hi, hall _ (List.forall₂_same.mpr fun v _ => SameVertex.refl v)]

/-- If everything returns, half way is the batch start. -/
theorem detMid_ne_zero (h : TryInv c s) {fl : ℕ} (hfl : fl < c.nf) {vs' : List Vert}
    (hs : List.Forall₂ SameVertex s.verts0 vs') (hr : ReturnsAll c.NI c.tbl s.verts0 s.verts vs' fl) :
    detMid c.NI c.G0 c.tbl s.verts0 s.verts vs' fl ≠ 0 := by
  have hF := h.flav fl hfl
  have nd0 : (s.verts0.map Vert.uid).Nodup := by rw [← Forall₂_uids h.same]; exact h.uids
  rw [← detMid_eq (c := c) hF.setup.aligned h.same hs nd0 (h.rows fl hfl)]
  have := hF.setup.inv.det_ne_zero
  have e : detAF c.NI c.G0 (s.invA fl) (s.invA fl).cr.length
      (fun i => curM c s.verts0 s.verts vs' ((s.invA fl).vi.getD i default)) =
      detN (s.invA fl).cr.length (flavorA c.NI c.G0 (s.invA fl).an (s.invA fl).cr (s.invA fl).al) := by
    unfold detAF detN
    congr 1
    refine toM_congr fun i hi j hj => ?_
    have key : curM c s.verts0 s.verts vs' ((s.invA fl).vi.getD j default) = (s.invA fl).al.getD j 0 := by
      have a1 := al_eq_cur h hfl hj
      obtain ⟨p, hp, r, hr', hf, c1, c2, c3⟩ := row_vertex h hfl hj
      have c4 := c3 vs' hs
      show (if c.cur (s.invA fl) vs' j = c.cur (s.invA fl) s.verts0 j then c.cur (s.invA fl) s.verts0 j else
        c.cur (s.invA fl) s.verts j) = _
      rw [← a1]
      split
      · rfl
      · rename_i hne
        rcases hr p hp r hr' hf with q | q
        · rw [c1, c2, q]
        · exact absurd (by rw [c4, c2, q]) hne
    unfold flavorA specA
    simp only [key]
  rw [e]; exact this

/-- Two descriptions of the same Gamma matrix agree up to order. -/
theorem InfoOK.perm_of {n : ℕ} {al cur : ℕ → K} {a b : List (GInfo K)} (h : InfoOK n al cur a) (h' : InfoOK n al cur b) :
    a.Perm b := by
  have key : ∀ {a b : List (GInfo K)}, InfoOK n al cur a → InfoOK n al cur b → ∀ x ∈ a, x ∈ b := by
    intro a b h h' x hx
    have hne : cur x.pos ≠ al x.pos := by rw [← h.a x hx, ← h.a0 x hx]; exact h.ne x hx
    have hm : x.pos ∈ b.map GInfo.pos := by
      by_contra hm
      exact hne (h'.cover _ (h.lt x hx) hm)
    obtain ⟨y, hy, e⟩ := List.mem_map.mp hm
    have : y = x := by
      have e1 := h.a x hx
      have e2 := h.a0 x hx
      have e3 := h'.a y hy
      have e4 := h'.a0 y hy
      rw [e] at e3 e4
      cases x; cases y
      simp only at e e1 e2 e3 e4
      subst e
      rw [e1, e2, e3, e4]
    rw [← this]; exact hy
  exact (List.perm_ext_iff_of_nodup h.nodup.of_map h'.nodup.of_map).mpr fun x => ⟨key h h' x, key h' h x⟩

/-- One flavor of a mixed trial. -/
theorem tryFlavor_mixed (ht : TblOK c.NI c.nf c.tbl) (h : TryInv c s) (hT : TrialOK c s pos spins) {fl : ℕ}
    (hfl : fl < c.nf) (hs : LeavesOrReturns c.NI c.tbl s.verts0 s.verts (pos.zip spins) fl)
    {w : Sub.Work K}
    (hrem : w.rem fl = (Sub.onFl fl (Sub.elems c s (pos.zip spins))).filter Sub.isRem)
    (hins : w.ins fl = (Sub.onFl fl (Sub.elems c s (pos.zip spins))).filter Sub.isIns)
    (hrep : w.rep fl = (Sub.onFl fl (Sub.elems c s (pos.zip spins))).filter Sub.isRep)
    (hr0 : w.rem fl ≠ []) (hi0 : w.ins fl ≠ [])
    (junk : ℕ → ℕ → ℕ → K) :
    ∃ G' q, Sub.tryFlavor c w (s.invA fl) fl (s.gam fl) = .ok (G', q) ∧
      (detMid c.NI c.G0 c.tbl s.verts0 s.verts (flipAll s.verts (pos.zip spins)) fl ≠ 0 →
        q = detFl c (flipAll s.verts (pos.zip spins)) fl / detFl c s.verts fl) ∧
      (∀ s' : Sub K, s'.rem fl = w.rem fl → s'.ins fl = w.ins fl → s'.rep fl = w.rep fl →
        ∃ G'', Sub.rejectFlavor s' fl G' = .ok G'' ∧
          FlavInv c.NI c.G0 (s.invA fl) G'' (s.invA fl).cr.length (c.cur (s.invA fl) s.verts)) ∧
      (ReturnsAll c.NI c.tbl s.verts0 s.verts (flipAll s.verts (pos.zip spins)) fl →
        ∀ s' : Sub K, s'.rem fl = w.rem fl → s'.ins fl = w.ins fl → s'.rep fl = w.rep fl →
        detFl c (flipAll s.verts (pos.zip spins)) fl ≠ 0 →
        ∃ G'', Sub.performFlavor junk s' fl G' = .ok G'' ∧
          FlavInv c.NI c.G0 (s.invA fl) G'' (s.invA fl).cr.length
            (c.cur (s.invA fl) (flipAll s.verts (pos.zip spins)))) := by
  have hF := h.flav fl hfl
  have hsame' : List.Forall₂ SameVertex s.verts0 (flipAll s.verts (pos.zip spins)) := by
    have h1 := h.same
    have h2 := flipAll_same s.verts (pos.zip spins)
    rw [List.forall₂_iff_get] at h1 h2 ⊢
    refine ⟨h1.1.trans h2.1, fun i q2 q3 => ?_⟩
    exact (h1.2 i q2 (h1.1 ▸ q2)).trans (h2.2 i (h1.1 ▸ q2) q3)
  have nd' : ((flipAll s.verts (pos.zip spins)).map Vert.uid).Nodup := by
    rw [Forall₂_uids (flipAll_same _ _)]; exact h.uids
  have nd0 : (s.verts0.map Vert.uid).Nodup := by rw [← Forall₂_uids h.same]; exact h.uids
  have d0 := detAF_cur (NI := c.NI) (G0 := c.G0) hF.setup.aligned h.same h.uids (h.rows fl hfl)
  have d1 := detAF_cur (NI := c.NI) (G0 := c.G0) hF.setup.aligned hsame' nd' (h.rows fl hfl)
  have dm := detMid_eq (c := c) hF.setup.aligned h.same hsame' nd0 (h.rows fl hfl)
  have hok' : ∀ i < (s.invA fl).cr.length, OkAlpha c.NI (c.cur (s.invA fl) (flipAll s.verts (pos.zip spins)) i) :=
    fun i hi => cur_ok ht hsame' nd' (flipAll_ok ht h hT) (h.rows fl hfl) hi
  change detAF c.NI c.G0 (s.invA fl) _ (c.cur (s.invA fl) s.verts) = detFl c s.verts fl at d0
  change detAF c.NI c.G0 (s.invA fl) _ (c.cur (s.invA fl) (flipAll s.verts (pos.zip spins))) =
    detFl c (flipAll s.verts (pos.zip spins)) fl at d1
  set E := Sub.onFl fl (Sub.elems c s (pos.zip spins)) with hEdef
  have hE : ∀ o ∈ E, ∃ x ∈ pos.zip spins,
      ∃ r < (termOf c.tbl (s.verts.getD x.1 default)).rank, flavorOf c.tbl (s.verts.getD x.1 default) r = fl ∧
      o = (Sub.elemOf c s x r).2 := fun o ho => Sub.onFl_elems.mp ho
  have hp0 : w.rep fl = [] := by
    rw [hrep, List.filter_eq_nil_iff]
    intro o ho
    obtain ⟨x, hx, r, hr, hf, rfl⟩ := hE o ho
    have := hs x hx r hr hf
    simp only [Sub.isRep, decide_eq_true_eq]
    intro ⟨q1, q2, q3⟩
    simp only [Sub.elemOf] at q1 q2 q3
    rcases this with e | e | e
    · exact q1 e.symm
    · exact q2 e.symm
    · exact q3 e.symm
  have hnone : ∀ o ∈ E, Sub.isRem o = false → Sub.isIns o = false → o.new = o.cur := by
    intro o ho h1 h2
    have h3 := List.filter_eq_nil_iff.mp (hrep ▸ hp0) o ho
    simp only [Sub.isRem, Sub.isIns, Sub.isRep, decide_eq_false_iff_not, decide_eq_true_eq] at h1 h2 h3
    by_contra hne
    by_cases q1 : o.a0 = o.cur <;> by_cases q2 : o.a0 = o.new <;> simp_all
  have hnd := elems_pos_nodup ht h hT fl
  rw [← hEdef] at hnd
  have hspec : ∀ o ∈ E, o.pos < (s.invA fl).cr.length ∧ o.a0 = (s.invA fl).al.getD o.pos 0 ∧
      o.cur = c.cur (s.invA fl) s.verts o.pos ∧
      o.new = c.cur (s.invA fl) (flipAll s.verts (pos.zip spins)) o.pos := by
    intro o ho
    obtain ⟨x, hx, r, hr, hf, rfl⟩ := hE o ho
    obtain ⟨q1, _, q3, q4, q5⟩ := elem_spec ht h hT hx hr hf
    exact ⟨q1, q3, q4, q5⟩
  have hcm : ∀ i < (s.invA fl).cr.length, curM c s.verts0 s.verts (flipAll s.verts (pos.zip spins))
      ((s.invA fl).vi.getD i default) =
      if c.cur (s.invA fl) (flipAll s.verts (pos.zip spins)) i = (s.invA fl).al.getD i 0 then
        (s.invA fl).al.getD i 0 else c.cur (s.invA fl) s.verts i := by
    intro i hi
    rw [al_eq_cur h hfl hi]
    rfl
  obtain ⟨cm, ecm⟩ : ∃ cm : ℕ → K, cm = fun i => curM c s.verts0 s.verts (flipAll s.verts (pos.zip spins))
      ((s.invA fl).vi.getD i default) := ⟨_, rfl⟩
  rw [← ecm] at dm
  replace hcm : ∀ i < (s.invA fl).cr.length, cm i =
      if c.cur (s.invA fl) (flipAll s.verts (pos.zip spins)) i = (s.invA fl).al.getD i 0 then
        (s.invA fl).al.getD i 0 else c.cur (s.invA fl) s.verts i := by
    intro i hi; rw [ecm]; exact hcm i hi
  have mrem : ∀ o ∈ w.rem fl, o ∈ E ∧ o.a0 ≠ o.cur ∧ o.a0 = o.new := by
    intro o ho; rw [hrem, List.mem_filter] at ho
    simpa [Sub.isRem] using ho
  have mins : ∀ o ∈ w.ins fl, o ∈ E ∧ o.a0 = o.cur ∧ o.a0 ≠ o.new := by
    intro o ho; rw [hins, List.mem_filter] at ho
    simpa [Sub.isIns] using ho
  have hR : OpsOK (s.invA fl).cr.length (fun i => (s.invA fl).al.getD i 0) (c.cur (s.invA fl) s.verts) cm (w.rem fl) := by
    refine ⟨?_, ?_, ?_, ?_, ?_, ?_⟩
    · rw [hrem]; exact (List.filter_sublist.map OpU.pos).nodup hnd
    · intro o ho; exact (hspec o (mrem o ho).1).1
    · intro o ho; exact (hspec o (mrem o ho).1).2.1
    · intro o ho; exact (hspec o (mrem o ho).1).2.2.1
    · intro o ho
      obtain ⟨q1, q2, q3, q4⟩ := hspec o (mrem o ho).1
      have e := (mrem o ho).2.2
      rw [hcm _ q1, ← q4, ← q2, if_pos e.symm, ← e]
    · intro i hi hni
      rw [hcm i hi]
      split
      · rename_i e
        rcases cur_off ht h hT hfl hi with hm | e'
        · rw [← hEdef] at hm
          obtain ⟨o, ho, rfl⟩ := List.mem_map.mp hm
          obtain ⟨q1, q2, q3, q4⟩ := hspec o ho
          by_contra hne
          apply hni
          refine List.mem_map_of_mem ?_
          rw [hrem, List.mem_filter]
          refine ⟨ho, ?_⟩
          simp only [Sub.isRem, decide_eq_true_eq]
          rw [q2, q3, q4]
          exact ⟨hne, e.symm⟩
        · rw [← e', e]
      · rfl
  have hI : OpsOK (s.invA fl).cr.length (fun i => (s.invA fl).al.getD i 0) cm
      (c.cur (s.invA fl) (flipAll s.verts (pos.zip spins))) (w.ins fl) := by
    refine ⟨?_, ?_, ?_, ?_, ?_, ?_⟩
    · rw [hins]; exact (List.filter_sublist.map OpU.pos).nodup hnd
    · intro o ho; exact (hspec o (mins o ho).1).1
    · intro o ho; exact (hspec o (mins o ho).1).2.1
    · intro o ho
      obtain ⟨q1, q2, q3, q4⟩ := hspec o (mins o ho).1
      have e := (mins o ho).2.2
      rw [hcm _ q1, ← q4, ← q2, if_neg (Ne.symm e), q3]
    · intro o ho; exact (hspec o (mins o ho).1).2.2.2
    · intro i hi hni
      rw [hcm i hi]
      split
      · assumption
      · rename_i e
        rcases cur_off ht h hT hfl hi with hm | e'
        · rw [← hEdef] at hm
          obtain ⟨o, ho, rfl⟩ := List.mem_map.mp hm
          obtain ⟨q1, q2, q3, q4⟩ := hspec o ho
          rw [← q3, ← q4]
          refine hnone o ho ?_ ?_
          · simp only [Sub.isRem, decide_eq_false_iff_not]
            rw [q2, q4]
            exact fun q => e q.2.symm
          · by_contra hq
            apply hni
            refine List.mem_map_of_mem ?_
            rw [hins, List.mem_filter]
            exact ⟨ho, by simpa using hq⟩
        · exact e'
  obtain ⟨G', q, e, g1, g0, g2, _⟩ := tryAddRemove_all hF hR hI hok'
    (fun o ho => fun q => (mrem o ho).2.1 q.symm) (fun o ho => (mrem o ho).2.2.symm)
    (fun o ho => (mins o ho).2.1.symm) (fun o ho => fun q => (mins o ho).2.2 q.symm) (junk fl)
  refine ⟨G', q, ?_, ?_, ?_, ?_⟩
  · unfold Sub.tryFlavor
    rw [if_neg (by simp [hr0]), if_neg (by simp [hr0]), if_neg (by simp [hi0]), if_pos ⟨hr0, hi0, hp0⟩, e]
  · intro hmid
    rw [g0 (by rw [dm]; exact hmid), d0, d1]
  · intro s' e1 e2 e3
    unfold Sub.rejectFlavor
    rw [if_neg (by rw [e1]; simp [hr0]), if_neg (by rw [e1]; simp [hr0]), if_neg (by rw [e2]; simp [hi0]),
      if_pos ⟨by rw [e1]; exact hr0, by rw [e2]; exact hi0, e3.trans hp0⟩]
    exact ⟨_, rfl, g1⟩
  · intro hall s' e1 e2 e3 hd
    unfold Sub.performFlavor
    rw [if_neg (by rw [e1]; simp [hr0]), if_neg (by rw [e1]; simp [hr0]), if_neg (by rw [e2]; simp [hi0]),
      if_pos ⟨by rw [e1]; exact hr0, by rw [e2]; exact hi0, e3.trans hp0⟩]
    refine g2 ?_ (by rw [d1]; exact hd)
    have hp : ((s.gam fl).info.map GInfo.pos).Perm ((w.rem fl).map OpU.pos) := by
      refine (List.perm_ext_iff_of_nodup hF.info.nodup hR.nodup).mpr fun i => ⟨?_, ?_⟩
      · intro hi
        obtain ⟨x, hx, rfl⟩ := List.mem_map.mp hi
        have hlt := hF.info.lt x hx
        have hne : c.cur (s.invA fl) s.verts x.pos ≠ (s.invA fl).al.getD x.pos 0 := by
          rw [← hF.info.a x hx]
          have := hF.info.a0 x hx
          rw [← this]
          exact hF.info.ne x hx
        obtain ⟨p, hp, r, hr, hf, c1, c2, c3⟩ := row_vertex h hfl hlt
        have hnew : c.cur (s.invA fl) (flipAll s.verts (pos.zip spins)) x.pos = (s.invA fl).al.getD x.pos 0 := by
          rcases hall p hp r hr hf with q | q
          · exact absurd (by rw [c1, c2, q]) hne
          · rw [c3 _ hsame', c2, q]
        rcases cur_off ht h hT hfl hlt with hm | e'
        · rw [← hEdef] at hm
          obtain ⟨o, ho, eo⟩ := List.mem_map.mp hm
          obtain ⟨q1, q2, q3, q4⟩ := hspec o ho
          refine List.mem_map.mpr ⟨o, ?_, eo⟩
          rw [hrem, List.mem_filter]
          refine ⟨ho, ?_⟩
          simp only [Sub.isRem, decide_eq_true_eq]
          rw [q2, q3, q4, eo]
          exact ⟨Ne.symm hne, hnew.symm⟩
        · exact absurd (by rw [← e', hnew]) hne
      · intro hi
        obtain ⟨o, ho, rfl⟩ := List.mem_map.mp hi
        obtain ⟨q1, q2, q3, q4⟩ := hspec o (mrem o ho).1
        by_contra hn
        have := hF.info.cover _ q1 hn
        have h2 : c.cur (s.invA fl) s.verts o.pos = (s.invA fl).al.getD o.pos 0 := this
        rw [← q2, ← q3] at h2
        exact (mrem o ho).2.1 h2.symm
    have := hp.length_eq
    simpa using this

/-- One flavor of a trial, all cases. -/
theorem tryFlavor_all (ht : TblOK c.NI c.nf c.tbl) (h : TryInv c s) (hT : TrialOK c s pos spins) {fl : ℕ}
    (hfl : fl < c.nf) {acc : Bool}
    (hs : FlavorTrial c.NI c.tbl s.verts0 s.verts (pos.zip spins) acc fl)
    {w : Sub.Work K}
    (hrem : w.rem fl = (Sub.onFl fl (Sub.elems c s (pos.zip spins))).filter Sub.isRem)
    (hins : w.ins fl = (Sub.onFl fl (Sub.elems c s (pos.zip spins))).filter Sub.isIns)
    (hrep : w.rep fl = (Sub.onFl fl (Sub.elems c s (pos.zip spins))).filter Sub.isRep)
    (junk : ℕ → ℕ → ℕ → K) :
    ∃ G' q, Sub.tryFlavor c w (s.invA fl) fl (s.gam fl) = .ok (G', q) ∧
      (FlavorRatio c.NI c.G0 c.tbl s.verts0 s.verts (pos.zip spins) fl →
        q = detFl c (flipAll s.verts (pos.zip spins)) fl / detFl c s.verts fl) ∧
      (∀ s' : Sub K, s'.rem fl = w.rem fl → s'.ins fl = w.ins fl → s'.rep fl = w.rep fl →
        ∃ G'', Sub.rejectFlavor s' fl G' = .ok G'' ∧
          FlavInv c.NI c.G0 (s.invA fl) G'' (s.invA fl).cr.length (c.cur (s.invA fl) s.verts) ∧
          (OnlyLeaves c.NI c.tbl s.verts0 s.verts (pos.zip spins) fl ∨
            OnlyReturns c.NI c.tbl s.verts0 s.verts (pos.zip spins) fl →
            G''.mat = (s.gam fl).mat ∧ G''.info = (s.gam fl).info)) ∧
      (acc = true →
        ∀ s' : Sub K, s'.rem fl = w.rem fl → s'.ins fl = w.ins fl → s'.rep fl = w.rep fl →
        detFl c (flipAll s.verts (pos.zip spins)) fl ≠ 0 →
        ∃ G'', Sub.performFlavor junk s' fl G' = .ok G'' ∧
          FlavInv c.NI c.G0 (s.invA fl) G'' (s.invA fl).cr.length
            (c.cur (s.invA fl) (flipAll s.verts (pos.zip spins)))) := by
  have simple : (AddsOn c s (pos.zip spins) fl ∨ RemovesOn c s (pos.zip spins) fl) → _ := fun hs =>
    tryFlavor_spec ht h hT hfl hs hrem hins hrep junk
  by_cases hsi : OnlyLeaves c.NI c.tbl s.verts0 s.verts (pos.zip spins) fl ∨
      OnlyReturns c.NI c.tbl s.verts0 s.verts (pos.zip spins) fl
  · obtain ⟨G', e, q1, q2⟩ := simple hsi
    refine ⟨G', _, e, fun _ => rfl, ?_, fun _ => q2⟩
    intro s' e1 e2 e3
    obtain ⟨G'', r1, r2, r3⟩ := q1 s' e1 e2 e3
    obtain ⟨p1, p2, p3, p4⟩ := h.flav fl hfl
    exact ⟨G'', r1, ⟨p1, by rw [r3]; exact p2, p3, by rw [r2, r3]; exact p4⟩, fun _ => ⟨r2, r3⟩⟩
  · rcases hs with hs | hs | ⟨hs, hacc⟩
    · exact absurd (Or.inl hs) hsi
    · exact absurd (Or.inr hs) hsi
    have hE : ∀ x ∈ pos.zip spins, ∀ r < (termOf c.tbl (s.verts.getD x.1 default)).rank,
        flavorOf c.tbl (s.verts.getD x.1 default) r = fl →
        (Sub.elemOf c s x r).2 ∈ Sub.onFl fl (Sub.elems c s (pos.zip spins)) := by
      intro x hx r hr hf
      exact Sub.onFl_elems.mpr ⟨x, hx, r, hr, hf, rfl⟩
    have hr0 : w.rem fl ≠ [] := by
      intro e
      apply hsi
      left
      intro x hx r hr hf
      have f1 := List.filter_eq_nil_iff.mp (hrem ▸ e) _ (hE x hx r hr hf)
      simp only [Sub.isRem, decide_eq_true_eq] at f1
      rcases hs x hx r hr hf with q | q | q
      · exact Or.inl q
      · left
        by_contra hne
        exact f1 ⟨fun q' => hne q'.symm, q.symm⟩
      · exact Or.inr q
    have hi0 : w.ins fl ≠ [] := by
      intro e
      apply hsi
      right
      intro x hx r hr hf
      have f1 := List.filter_eq_nil_iff.mp (hins ▸ e) _ (hE x hx r hr hf)
      simp only [Sub.isIns, decide_eq_true_eq] at f1
      rcases hs x hx r hr hf with q | q | q
      · left
        by_contra hne
        exact f1 ⟨q.symm, fun q' => hne q'.symm⟩
      · exact Or.inl q
      · exact Or.inr q
    obtain ⟨G', q, e, q0, q1, q2⟩ := tryFlavor_mixed ht h hT hfl hs hrem hins hrep hr0 hi0 junk
    refine ⟨G', q, e, ?_, ?_, fun ha => q2 (hacc ha)⟩
    · rintro (hx | hx | hx)
      · exact absurd (Or.inl hx) hsi
      · exact absurd (Or.inr hx) hsi
      · exact q0 hx
    intro s' e1 e2 e3
    obtain ⟨G'', r1, r2⟩ := q1 s' e1 e2 e3
    exact ⟨G'', r1, r2, fun q => absurd q hsi⟩

end CTInt
