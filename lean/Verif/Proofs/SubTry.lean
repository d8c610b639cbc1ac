import Verif.Proofs.Work

/-!
# Trials of `SubmatrixUpdate`
-/

set_option linter.all false

open Matrix

namespace CTInt

variable {K : Type} [RCLike K] [DecidableEq K]

/-- Fields of the operator pairs of one flavor in a given configuration. -/
noncomputable def Ctx.cur (c : Ctx K) (A : InvA K) (vs : List Vert) : ℕ → K :=
  fun i => curF c.NI c.tbl vs (A.vi.getD i default)

/-- The invariant between `init_update` and `finalize_update`. -/
structure TryInv (c : Ctx K) (s : Sub K) : Prop where
  trying : s.trying = true
  same : List.Forall₂ SameVertex s.verts0 s.verts
  uids : (s.verts.map Vert.uid).Nodup
  uidle : ∀ v ∈ s.verts, v.uid ≤ s.uid
  ok0 : ∀ v ∈ s.verts0, VertOK c.tbl v
  ok : ∀ v ∈ s.verts, VertOK c.tbl v
  flav : ∀ fl < c.nf, FlavInv c.NI c.G0 (s.invA fl) (s.gam fl) (s.invA fl).cr.length (c.cur (s.invA fl) s.verts)
  rows : ∀ fl < c.nf, (s.invA fl).rowList.Perm (rowsOf c.NI c.tbl s.verts0 fl)
  sgnA : s.signDetA = mysign (detAll c.NI c.nf c.G0 c.tbl s.verts)
  sgn : s.sign = mysign (weight c.NI c.nf c.G0 c.tbl s.verts)

/-- A caller's trial: distinct existing positions, one existing spin state (or -1) for each. -/
structure TrialOK (c : Ctx K) (s : Sub K) (pos : List ℕ) (spins : List ℤ) : Prop where
  len : pos.length = spins.length
  nodup : pos.Nodup
  lt : ∀ p ∈ pos, p < s.verts.length
  spin : ∀ x ∈ pos.zip spins, SpinOK c.tbl (s.verts.getD x.1 default) x.2

/-- The trial only moves pairs of flavor `fl` away from their batch-start values. -/
def AddsOn (c : Ctx K) (s : Sub K) (ps : List (ℕ × ℤ)) (fl : ℕ) : Prop :=
  ∀ x ∈ ps, ∀ r < (termOf c.tbl (s.verts.getD x.1 default)).rank,
    flavorOf c.tbl (s.verts.getD x.1 default) r = fl →
      fieldOf c.NI c.tbl (s.verts.getD x.1 default) r = fieldOf c.NI c.tbl (s.verts0.getD x.1 default) r ∨
      fieldOf c.NI c.tbl (flipTo (s.verts.getD x.1 default) x.2) r =
        fieldOf c.NI c.tbl (s.verts.getD x.1 default) r

/-- The trial only moves pairs of flavor `fl` back to their batch-start values. -/
def RemovesOn (c : Ctx K) (s : Sub K) (ps : List (ℕ × ℤ)) (fl : ℕ) : Prop :=
  ∀ x ∈ ps, ∀ r < (termOf c.tbl (s.verts.getD x.1 default)).rank,
    flavorOf c.tbl (s.verts.getD x.1 default) r = fl →
      fieldOf c.NI c.tbl (flipTo (s.verts.getD x.1 default) x.2) r =
        fieldOf c.NI c.tbl (s.verts0.getD x.1 default) r ∨
      fieldOf c.NI c.tbl (flipTo (s.verts.getD x.1 default) x.2) r =
        fieldOf c.NI c.tbl (s.verts.getD x.1 default) r

theorem TrialOK.map_fst {c : Ctx K} {s : Sub K} {pos : List ℕ} {spins : List ℤ} (h : TrialOK c s pos spins) :
    (pos.zip spins).map Prod.fst = pos := List.map_fst_zip (le_of_eq h.len)

theorem getD_mem {α : Type} {l : List α} {i : ℕ} (h : i < l.length) (d : α) : l.getD i d ∈ l := by
  rw [List.getD_eq_getElem _ _ h]; exact List.getElem_mem _

theorem forall₂_getD {vs0 vs : List Vert} (h : List.Forall₂ SameVertex vs0 vs) {i : ℕ} (hi : i < vs.length) :
    SameVertex (vs0.getD i default) (vs.getD i default) := by
  rw [List.forall₂_iff_get] at h
  have h0 : i < vs0.length := by rw [h.1]; exact hi
  rw [List.getD_eq_getElem _ _ h0, List.getD_eq_getElem _ _ hi]
  exact h.2 i h0 hi

section trial
variable {c : Ctx K} {s : Sub K} {pos : List ℕ} {spins : List ℤ}

theorem keys_nodup (h : TryInv c s) {fl : ℕ} (hfl : fl < c.nf) :
    ((s.invA fl).rowList.map rowKey).Nodup := by
  refine (((h.rows fl hfl).map rowKey).nodup_iff).mpr (rowsOf_key_nodup ?_ fl)
  rw [← Forall₂_uids h.same]; exact h.uids

/-- Every operator pair of the configuration has a row. -/
theorem row_exists (ht : TblOK c.NI c.nf c.tbl) (h : TryInv c s) {p : ℕ} (hp : p < s.verts.length) {r : ℕ}
    (hr : r < (termOf c.tbl (s.verts.getD p default)).rank) :
    ∃ i < (s.invA (flavorOf c.tbl (s.verts.getD p default) r)).cr.length,
      (s.invA (flavorOf c.tbl (s.verts.getD p default) r)).rowAt i = rowOf c.NI c.tbl (s.verts0.getD p default) r ∧
      (s.invA (flavorOf c.tbl (s.verts.getD p default) r)).findRowCol (s.verts.getD p default).uid r = some i := by
  have hsame := forall₂_getD h.same hp
  have hp0 : p < s.verts0.length := by rw [h.same.length_eq]; exact hp
  have hfl := flavorOf_lt ht (h.ok _ (getD_mem hp default)).1 hr
  have hm : rowOf c.NI c.tbl (s.verts0.getD p default) r ∈
      rowsOf c.NI c.tbl s.verts0 (flavorOf c.tbl (s.verts.getD p default) r) :=
    mem_rowsOf.mpr ⟨_, getD_mem hp0 default, r, by rw [← hsame.term]; exact hr, (hsame.flavor r).symm, rfl⟩
  rw [← (h.rows _ hfl).mem_iff] at hm
  obtain ⟨i, hi, e⟩ := List.mem_map.mp hm
  refine ⟨i, List.mem_range.mp hi, e, findRowCol_spec (keys_nodup h hfl) (List.mem_range.mp hi) ?_⟩
  rw [e]
  show ((s.verts0.getD p default).uid, r) = ((s.verts.getD p default).uid, r)
  rw [hsame.uid]

theorem workOK (ht : TblOK c.NI c.nf c.tbl) (h : TryInv c s) (hT : TrialOK c s pos spins) :
    ∀ x ∈ pos.zip spins, Sub.WorkOK c s x := by
  intro x hx
  have hp : x.1 ∈ pos := (List.of_mem_zip hx).1
  have hlt := hT.lt _ hp
  have hlt0 : x.1 < s.verts0.length := by rw [h.same.length_eq]; exact hlt
  refine ⟨hlt, hlt0, h.ok _ (getD_mem hlt default), h.ok0 _ (getD_mem hlt0 default), forall₂_getD h.same hlt,
    hT.spin x hx, ?_⟩
  intro r hr
  obtain ⟨i, _, _, e⟩ := row_exists ht h hlt hr
  rw [e]; rfl

/-- Facts on the update of one operator pair. -/
theorem elem_spec (ht : TblOK c.NI c.nf c.tbl) (h : TryInv c s) (hT : TrialOK c s pos spins) {fl : ℕ}
    {x : ℕ × ℤ} (hx : x ∈ pos.zip spins) {r : ℕ}
    (hr : r < (termOf c.tbl (s.verts.getD x.1 default)).rank)
    (hf : flavorOf c.tbl (s.verts.getD x.1 default) r = fl) :
    (Sub.elemOf c s x r).2.pos < (s.invA fl).cr.length ∧
    rowKey ((s.invA fl).rowAt (Sub.elemOf c s x r).2.pos) = ((s.verts.getD x.1 default).uid, r) ∧
    (Sub.elemOf c s x r).2.a0 = (s.invA fl).al.getD (Sub.elemOf c s x r).2.pos 0 ∧
    (Sub.elemOf c s x r).2.cur = c.cur (s.invA fl) s.verts (Sub.elemOf c s x r).2.pos ∧
    (Sub.elemOf c s x r).2.new = c.cur (s.invA fl) (flipAll s.verts (pos.zip spins)) (Sub.elemOf c s x r).2.pos := by
  have hp : x.1 ∈ pos := (List.of_mem_zip hx).1
  have hlt := hT.lt _ hp
  have hsame := forall₂_getD h.same hlt
  subst hf
  obtain ⟨i, hi, e, ef⟩ := row_exists ht h hlt hr
  set fl := flavorOf c.tbl (s.verts.getD x.1 default) r with hfl
  have ep : (Sub.elemOf c s x r).2.pos = i := by
    simp only [Sub.elemOf]
    rw [← hfl, ef]; rfl
  have evi : (s.invA fl).vi.getD i default =
      ⟨(s.verts0.getD x.1 default).type, r, (s.verts.getD x.1 default).uid⟩ := by
    have := congrArg OpRow.vi e
    rw [hsame.uid]
    exact this
  rw [ep]
  refine ⟨hi, ?_, ?_, ?_, ?_⟩
  · rw [e, hsame.uid]; rfl
  · have := congrArg OpRow.al e
    exact this.symm
  · show _ = curF c.NI c.tbl s.verts ((s.invA fl).vi.getD i default)
    rw [evi, curF_mem h.uids (getD_mem hlt default)]
    rfl
  · show _ = curF c.NI c.tbl (flipAll s.verts (pos.zip spins)) ((s.invA fl).vi.getD i default)
    have hnd : ((pos.zip spins).map Prod.fst).Nodup := by rw [hT.map_fst]; exact hT.nodup
    have hon := flipAll_on s.verts hnd (p := x.1) (s := x.2) hx
    have hm : flipTo (s.verts.getD x.1 default) x.2 ∈ flipAll s.verts (pos.zip spins) := by
      rw [List.getElem?_eq_getElem hlt, Option.map_some] at hon
      rw [List.getD_eq_getElem _ _ hlt]
      exact List.mem_of_getElem? hon
    have hu : (flipTo (s.verts.getD x.1 default) x.2).uid = (s.verts.getD x.1 default).uid :=
      (SameVertex.flip _ _).uid
    have hnd2 : ((flipAll s.verts (pos.zip spins)).map Vert.uid).Nodup := by
      rw [Forall₂_uids (flipAll_same _ _)]; exact h.uids
    have := curF_mem (NI := c.NI) (tbl := c.tbl) hnd2 hm (s.verts0.getD x.1 default).type r
    rw [hu] at this
    rw [evi, this]
    rfl

theorem getD_uid_inj (nd : (s.verts.map Vert.uid).Nodup) {p q : ℕ} (hp : p < s.verts.length)
    (hq : q < s.verts.length) (h : (s.verts.getD p default).uid = (s.verts.getD q default).uid) : p = q := by
  rw [List.getD_eq_getElem _ _ hp, List.getD_eq_getElem _ _ hq] at h
  have := (List.nodup_iff_injective_getElem.mp nd) (a₁ := ⟨p, by simpa using hp⟩) (a₂ := ⟨q, by simpa using hq⟩)
    (by simpa using h)
  simpa using this

theorem elems_pos_nodup (ht : TblOK c.NI c.nf c.tbl) (h : TryInv c s) (hT : TrialOK c s pos spins) (fl : ℕ) :
    ((Sub.onFl fl (Sub.elems c s (pos.zip spins))).map OpU.pos).Nodup := by
  have e := Sub.onFl_keys (c := c) (s := s) (ps := pos.zip spins) (fl := fl)
    (fun o => rowKey ((s.invA fl).rowAt o.pos)) (fun x hx r hr hf => (elem_spec ht h hT hx hr hf).2.1)
  have hnd : ((rowsOf c.NI c.tbl ((pos.zip spins).map fun x => s.verts.getD x.1 default) fl).map rowKey).Nodup := by
    apply rowsOf_key_nodup
    have e2 : (pos.zip spins).map (fun x => s.verts.getD x.1 default) = pos.map fun p => s.verts.getD p default := by
      conv_rhs => rw [← hT.map_fst, List.map_map]
      rfl
    rw [e2, List.map_map]
    refine List.Nodup.map_on ?_ hT.nodup
    intro p hp q hq hpq
    exact getD_uid_inj h.uids (hT.lt p hp) (hT.lt q hq) hpq
  rw [← e] at hnd
  have e3 : (Sub.onFl fl (Sub.elems c s (pos.zip spins))).map (fun o => rowKey ((s.invA fl).rowAt o.pos)) =
      ((Sub.onFl fl (Sub.elems c s (pos.zip spins))).map OpU.pos).map fun p => rowKey ((s.invA fl).rowAt p) := by
    rw [List.map_map]; rfl
  rw [e3] at hnd
  exact hnd.of_map _

/-- Pairs the trial does not touch keep their field. -/
theorem cur_off (ht : TblOK c.NI c.nf c.tbl) (h : TryInv c s) (hT : TrialOK c s pos spins) {fl : ℕ}
    (hfl : fl < c.nf) {i : ℕ} (hi : i < (s.invA fl).cr.length) :
    i ∈ (Sub.onFl fl (Sub.elems c s (pos.zip spins))).map OpU.pos ∨
    c.cur (s.invA fl) (flipAll s.verts (pos.zip spins)) i = c.cur (s.invA fl) s.verts i := by
  have hm : (s.invA fl).rowAt i ∈ (s.invA fl).rowList :=
    List.mem_map_of_mem (List.mem_range.mpr hi)
  rw [(h.rows fl hfl).mem_iff] at hm
  obtain ⟨v0, hv0, r, hr, hf, e⟩ := mem_rowsOf.mp hm
  obtain ⟨p, hp, rfl⟩ := List.mem_iff_getElem.mp hv0
  have hpl : p < s.verts.length := by rw [← h.same.length_eq]; exact hp
  have hsame := forall₂_getD h.same hpl
  rw [List.getD_eq_getElem _ _ hp] at hsame
  have evi : (s.invA fl).vi.getD i default = ⟨s.verts0[p].type, r, (s.verts.getD p default).uid⟩ := by
    have := congrArg OpRow.vi e
    rw [hsame.uid]
    exact this
  by_cases hps : p ∈ pos
  · left
    obtain ⟨k, hk, rfl⟩ := List.mem_iff_getElem.mp hps
    have hx : (pos[k], spins[k]'(by rw [← hT.len]; exact hk)) ∈ pos.zip spins := by
      rw [List.mem_iff_getElem]
      exact ⟨k, by rw [List.length_zip, hT.len]; simp; rw [← hT.len]; exact hk, by simp⟩
    have hr' : r < (termOf c.tbl (s.verts.getD pos[k] default)).rank := by rw [hsame.term]; exact hr
    have hf' : flavorOf c.tbl (s.verts.getD pos[k] default) r = fl := by rw [hsame.flavor]; exact hf
    obtain ⟨q1, q2, _⟩ := elem_spec ht h hT hx hr' hf'
    rw [List.mem_map]
    refine ⟨_, Sub.onFl_elems.mpr ⟨_, hx, r, hr', hf', rfl⟩, ?_⟩
    have hk2 : rowKey ((s.invA fl).rowAt i) = ((s.verts.getD pos[k] default).uid, r) := by
      rw [e, hsame.uid]; rfl
    have nd := keys_nodup h hfl
    have h1 := findRowCol_spec nd q1 q2
    have h2 := findRowCol_spec nd hi hk2
    rw [h1] at h2
    exact Option.some.inj h2
  · right
    have hoff : (flipAll s.verts (pos.zip spins))[p]? = s.verts[p]? :=
      flipAll_off _ _ (by rw [hT.map_fst]; exact hps)
    have hm : s.verts.getD p default ∈ flipAll s.verts (pos.zip spins) := by
      rw [List.getElem?_eq_getElem hpl] at hoff
      rw [List.getD_eq_getElem _ _ hpl]
      exact List.mem_of_getElem? hoff
    have hnd2 : ((flipAll s.verts (pos.zip spins)).map Vert.uid).Nodup := by
      rw [Forall₂_uids (flipAll_same _ _)]; exact h.uids
    show curF c.NI c.tbl _ ((s.invA fl).vi.getD i default) = curF c.NI c.tbl _ ((s.invA fl).vi.getD i default)
    rw [evi, curF_mem hnd2 hm, curF_mem h.uids (getD_mem hpl default)]

/-- Restricting to a subset of the updates that contains every real change. -/
theorem opsOK_filter (ht : TblOK c.NI c.nf c.tbl) (h : TryInv c s) (hT : TrialOK c s pos spins) {fl : ℕ}
    (hfl : fl < c.nf) (q : OpU K → Bool)
    (hq : ∀ o ∈ Sub.onFl fl (Sub.elems c s (pos.zip spins)), q o = false → o.new = o.cur) :
    OpsOK (s.invA fl).cr.length (fun i => (s.invA fl).al.getD i 0) (c.cur (s.invA fl) s.verts)
      (c.cur (s.invA fl) (flipAll s.verts (pos.zip spins)))
      ((Sub.onFl fl (Sub.elems c s (pos.zip spins))).filter q) := by
  have hE : ∀ o ∈ Sub.onFl fl (Sub.elems c s (pos.zip spins)), ∃ x ∈ pos.zip spins,
      ∃ r < (termOf c.tbl (s.verts.getD x.1 default)).rank, flavorOf c.tbl (s.verts.getD x.1 default) r = fl ∧
      o = (Sub.elemOf c s x r).2 := fun o ho => Sub.onFl_elems.mp ho
  have hnd := elems_pos_nodup ht h hT fl
  refine ⟨?_, ?_, ?_, ?_, ?_, ?_⟩
  · exact (List.filter_sublist.map OpU.pos).nodup hnd
  · intro o ho
    obtain ⟨x, hx, r, hr, hf, rfl⟩ := hE o (List.mem_filter.mp ho).1
    exact (elem_spec ht h hT hx hr hf).1
  · intro o ho
    obtain ⟨x, hx, r, hr, hf, rfl⟩ := hE o (List.mem_filter.mp ho).1
    exact (elem_spec ht h hT hx hr hf).2.2.1
  · intro o ho
    obtain ⟨x, hx, r, hr, hf, rfl⟩ := hE o (List.mem_filter.mp ho).1
    exact (elem_spec ht h hT hx hr hf).2.2.2.1
  · intro o ho
    obtain ⟨x, hx, r, hr, hf, rfl⟩ := hE o (List.mem_filter.mp ho).1
    exact (elem_spec ht h hT hx hr hf).2.2.2.2
  · intro i hi hni
    rcases cur_off ht h hT hfl hi with hm | e
    · obtain ⟨o, ho, rfl⟩ := List.mem_map.mp hm
      have hqo : q o = false := by
        by_contra hq'
        exact hni (List.mem_map_of_mem (List.mem_filter.mpr ⟨ho, by simpa using hq'⟩))
      have := hq o ho hqo
      obtain ⟨x, hx, r, hr, hf, rfl⟩ := hE o ho
      obtain ⟨_, _, _, e4, e5⟩ := elem_spec ht h hT hx hr hf
      rw [← e4, ← e5, this]
    · exact e

theorem elem_ok (ht : TblOK c.NI c.nf c.tbl) (h : TryInv c s) (hT : TrialOK c s pos spins) :
    ∀ x ∈ pos.zip spins, VertOK c.tbl (flipTo (s.verts.getD x.1 default) x.2) := by
  intro x hx
  have W := workOK ht h hT x hx
  exact flipTo_ok W.ok W.spin

theorem flipAll_ok (ht : TblOK c.NI c.nf c.tbl) (h : TryInv c s) (hT : TrialOK c s pos spins) :
    ∀ v ∈ flipAll s.verts (pos.zip spins), VertOK c.tbl v := by
  intro v hv
  obtain ⟨i, hi, rfl⟩ := List.mem_iff_getElem.mp hv
  have hil : i < s.verts.length := by rw [flipAll_length] at hi; exact hi
  by_cases hp : i ∈ pos
  · obtain ⟨k, hk, rfl⟩ := List.mem_iff_getElem.mp hp
    have hx : (pos[k], spins[k]'(by rw [← hT.len]; exact hk)) ∈ pos.zip spins := by
      rw [List.mem_iff_getElem]
      exact ⟨k, by rw [List.length_zip, hT.len]; simp; rw [← hT.len]; exact hk, by simp⟩
    have hnd : ((pos.zip spins).map Prod.fst).Nodup := by rw [hT.map_fst]; exact hT.nodup
    have hon := flipAll_on s.verts hnd hx
    rw [List.getElem?_eq_getElem hi, List.getElem?_eq_getElem hil, Option.map_some, Option.some.injEq] at hon
    rw [hon]
    have := elem_ok ht h hT _ hx
    rw [List.getD_eq_getElem _ _ hil] at this
    exact this
  · have hoff : (flipAll s.verts (pos.zip spins))[i]? = s.verts[i]? :=
      flipAll_off _ _ (by rw [hT.map_fst]; exact hp)
    rw [List.getElem?_eq_getElem hi, List.getElem?_eq_getElem hil, Option.some.injEq] at hoff
    rw [hoff]
    exact h.ok _ (List.getElem_mem _)

theorem cur_ok (ht : TblOK c.NI c.nf c.tbl) {A : InvA K} {vs0 vs : List Vert} {fl : ℕ}
    (hsame : List.Forall₂ SameVertex vs0 vs) (nd : (vs.map Vert.uid).Nodup) (hok : ∀ v ∈ vs, VertOK c.tbl v)
    (hp : A.rowList.Perm (rowsOf c.NI c.tbl vs0 fl)) {i : ℕ} (hi : i < A.cr.length) :
    OkAlpha c.NI (c.cur A vs i) := by
  have hm := (rowCur_perm (NI := c.NI) (tbl := c.tbl) hsame nd hp).mem_iff
    (a := { A.rowAt i with al := c.cur A vs i })
  have : ({ A.rowAt i with al := c.cur A vs i } : OpRow K) ∈
      A.rowCur fun i => curF c.NI c.tbl vs (A.vi.getD i default) := by
    unfold InvA.rowCur
    rw [List.mem_map]
    exact ⟨i, List.mem_range.mpr hi, rfl⟩
  exact rowsOf_ok ht hok (hm.mp this)

/-- det A of one flavor in a configuration that has the batch's vertices. -/
noncomputable def detFl (c : Ctx K) (vs : List Vert) (fl : ℕ) : K :=
  detN (rowsOf c.NI c.tbl vs fl).length (rowA c.NI c.G0 (rowsOf c.NI c.tbl vs fl))

theorem detFl_ne_zero (ht : TblOK c.NI c.nf c.tbl) (h : TryInv c s) {fl : ℕ} (hfl : fl < c.nf) :
    detFl c s.verts fl ≠ 0 := by
  have hF := h.flav fl hfl
  have e := detAF_cur (NI := c.NI) (G0 := c.G0) hF.setup.aligned h.same h.uids (h.rows fl hfl)
  unfold detFl
  rw [← e]
  have := detAF_eq hF.setup hF.info hF.ok
  show detAF c.NI c.G0 (s.invA fl) _ (c.cur (s.invA fl) s.verts) ≠ 0
  rw [this]
  exact mul_ne_zero hF.setup.inv.det_ne_zero
    (mul_ne_zero (gamP_ne_zero hF.setup hF.info hF.ok) hF.inv.det_ne_zero)

/-- One flavor of a trial. -/
theorem tryFlavor_spec (ht : TblOK c.NI c.nf c.tbl) (h : TryInv c s) (hT : TrialOK c s pos spins) {fl : ℕ}
    (hfl : fl < c.nf) (hs : AddsOn c s (pos.zip spins) fl ∨ RemovesOn c s (pos.zip spins) fl)
    {w : Sub.Work K}
    (hrem : w.rem fl = (Sub.onFl fl (Sub.elems c s (pos.zip spins))).filter Sub.isRem)
    (hins : w.ins fl = (Sub.onFl fl (Sub.elems c s (pos.zip spins))).filter Sub.isIns)
    (hrep : w.rep fl = (Sub.onFl fl (Sub.elems c s (pos.zip spins))).filter Sub.isRep)
    (junk : ℕ → ℕ → ℕ → K) :
    ∃ G', Sub.tryFlavor c w (s.invA fl) fl (s.gam fl) =
        .ok (G', detFl c (flipAll s.verts (pos.zip spins)) fl / detFl c s.verts fl) ∧
      (∀ s' : Sub K, s'.rem fl = w.rem fl → s'.ins fl = w.ins fl → s'.rep fl = w.rep fl →
        ∃ G'', Sub.rejectFlavor s' fl G' = .ok G'' ∧ G''.mat = (s.gam fl).mat ∧ G''.info = (s.gam fl).info) ∧
      (∀ s' : Sub K, s'.rem fl = w.rem fl → s'.ins fl = w.ins fl → s'.rep fl = w.rep fl →
        detFl c (flipAll s.verts (pos.zip spins)) fl ≠ 0 →
        ∃ G'', Sub.performFlavor junk s' fl G' = .ok G'' ∧
          FlavInv c.NI c.G0 (s.invA fl) G'' (s.invA fl).cr.length
            (c.cur (s.invA fl) (flipAll s.verts (pos.zip spins)))) := by
  have hF := h.flav fl hfl
  have hsame' : List.Forall₂ SameVertex s.verts0 (flipAll s.verts (pos.zip spins)) := by
    have h1 := h.same
    have h2 := flipAll_same s.verts (pos.zip spins)
    rw [List.forall₂_iff_get] at h1 h2 ⊢
    refine ⟨h1.1.trans h2.1, fun i q2 q3 => ?_⟩
    exact (h1.2 i q2 (h1.1 ▸ q2)).trans (h2.2 i (h1.1 ▸ q2) q3)
  have nd' : ((flipAll s.verts (pos.zip spins)).map Vert.uid).Nodup := by
    rw [Forall₂_uids (flipAll_same _ _)]; exact h.uids
  have d0 := detAF_cur (NI := c.NI) (G0 := c.G0) hF.setup.aligned h.same h.uids (h.rows fl hfl)
  have d1 := detAF_cur (NI := c.NI) (G0 := c.G0) hF.setup.aligned hsame' nd' (h.rows fl hfl)
  have hok' : ∀ i < (s.invA fl).cr.length, OkAlpha c.NI (c.cur (s.invA fl) (flipAll s.verts (pos.zip spins)) i) :=
    fun i hi => cur_ok ht hsame' nd' (flipAll_ok ht h hT) (h.rows fl hfl) hi
  change detAF c.NI c.G0 (s.invA fl) _ (c.cur (s.invA fl) s.verts) = detFl c s.verts fl at d0
  change detAF c.NI c.G0 (s.invA fl) _ (c.cur (s.invA fl) (flipAll s.verts (pos.zip spins))) =
    detFl c (flipAll s.verts (pos.zip spins)) fl at d1
  have hE : ∀ o ∈ Sub.onFl fl (Sub.elems c s (pos.zip spins)), ∃ x ∈ pos.zip spins,
      ∃ r < (termOf c.tbl (s.verts.getD x.1 default)).rank, flavorOf c.tbl (s.verts.getD x.1 default) r = fl ∧
      o = (Sub.elemOf c s x r).2 := fun o ho => Sub.onFl_elems.mp ho
  have hnone : ∀ o ∈ Sub.onFl fl (Sub.elems c s (pos.zip spins)),
      Sub.isRem o = false → Sub.isIns o = false → Sub.isRep o = false → o.new = o.cur := by
    intro o _ h1 h2 h3
    simp only [Sub.isRem, Sub.isIns, Sub.isRep, decide_eq_false_iff_not] at h1 h2 h3
    by_contra hne
    by_cases q1 : o.a0 = o.cur <;> by_cases q2 : o.a0 = o.new <;> simp_all
  rcases hs with hadd | hremv
  · -- only additions
    have hr0 : w.rem fl = [] := by
      rw [hrem, List.filter_eq_nil_iff]
      intro o ho
      obtain ⟨x, hx, r, hr, hf, rfl⟩ := hE o ho
      have := hadd x hx r hr hf
      simp only [Sub.isRem, decide_eq_true_eq]
      intro ⟨q1, q2⟩
      simp only [Sub.elemOf] at q1 q2
      rcases this with e | e
      · exact q1 e.symm
      · rw [e] at q2; exact q1 q2
    have hp0 : w.rep fl = [] := by
      rw [hrep, List.filter_eq_nil_iff]
      intro o ho
      obtain ⟨x, hx, r, hr, hf, rfl⟩ := hE o ho
      have := hadd x hx r hr hf
      simp only [Sub.isRep, decide_eq_true_eq]
      intro ⟨q1, q2, q3⟩
      simp only [Sub.elemOf] at q1 q2 q3
      rcases this with e | e
      · exact q1 e.symm
      · exact q3 e.symm
    by_cases hi0 : w.ins fl = []
    · -- nothing happens on this flavor
      have hall : ∀ o ∈ Sub.onFl fl (Sub.elems c s (pos.zip spins)), o.new = o.cur := by
        intro o ho
        have f1 := List.filter_eq_nil_iff.mp (hrem ▸ hr0) o ho
        have f2 := List.filter_eq_nil_iff.mp (hins ▸ hi0) o ho
        have f3 := List.filter_eq_nil_iff.mp (hrep ▸ hp0) o ho
        exact hnone o ho (by simpa using f1) (by simpa using f2) (by simpa using f3)
      have hcur : ∀ i < (s.invA fl).cr.length,
          c.cur (s.invA fl) (flipAll s.verts (pos.zip spins)) i = c.cur (s.invA fl) s.verts i := by
        have := (opsOK_filter ht h hT hfl (fun _ => false) (fun o ho _ => hall o ho)).off
        intro i hi
        exact this i hi (by simp)
      have hdd : detFl c (flipAll s.verts (pos.zip spins)) fl = detFl c s.verts fl := by
        rw [← d0, ← d1]
        unfold detAF
        refine detN_congr fun i hi j hj => ?_
        unfold specA
        simp only []
        rw [hcur j hj]
      refine ⟨s.gam fl, ?_, ?_, ?_⟩
      · unfold Sub.tryFlavor
        rw [if_pos ⟨hr0, hi0, hp0⟩, hdd, div_self (detFl_ne_zero ht h hfl)]
      · intro s' e1 e2 e3
        unfold Sub.rejectFlavor
        rw [if_pos ⟨e1.trans hr0, e2.trans hi0, e3.trans hp0⟩]
        exact ⟨_, rfl, rfl, rfl⟩
      · intro s' e1 e2 e3 _
        unfold Sub.performFlavor
        rw [if_pos ⟨e1.trans hr0, e2.trans hi0, e3.trans hp0⟩]
        refine ⟨_, rfl, hF.setup, ?_, hok', hF.inv⟩
        have hI := hF.info
        exact ⟨hI.nodup, hI.lt, hI.a0, fun r hr => by rw [hI.a r hr, hcur _ (hI.lt r hr)], hI.ne,
          fun i hi hn => by rw [hcur i hi]; exact hI.cover i hi hn⟩
    · have hO := opsOK_filter ht h hT hfl Sub.isIns (fun o ho hq => by
        have f1 := List.filter_eq_nil_iff.mp (hrem ▸ hr0) o ho
        have f3 := List.filter_eq_nil_iff.mp (hrep ▸ hp0) o ho
        exact hnone o ho (by simpa using f1) hq (by simpa using f3))
      rw [← hins] at hO
      have hmem : ∀ o ∈ w.ins fl, Sub.isIns o = true := by
        intro o ho; rw [hins] at ho; exact (List.mem_filter.mp ho).2
      obtain ⟨G', e, g1, g2, g3, g4⟩ := tryAdd_spec hF hO hok'
        (fun o ho => by have := hmem o ho; simp only [Sub.isIns, decide_eq_true_eq] at this; exact this.1.symm)
        (fun o ho => by have := hmem o ho; simp only [Sub.isIns, decide_eq_true_eq] at this; exact fun q => this.2 q.symm)
        hi0 (junk fl)
      refine ⟨G', ?_, ?_, ?_⟩
      · unfold Sub.tryFlavor
        rw [if_neg (by simp [hi0]), if_pos ⟨hr0, hi0, hp0⟩, e, d0, d1]
      · intro s' e1 e2 e3
        unfold Sub.rejectFlavor
        rw [if_neg (by rw [e2]; simp [hi0]), if_pos ⟨e1.trans hr0, by rw [e2]; exact hi0, e3.trans hp0⟩]
        exact ⟨_, rfl, g2, g3⟩
      · intro s' e1 e2 e3 hd
        unfold Sub.performFlavor
        rw [if_neg (by rw [e2]; simp [hi0]), if_pos ⟨e1.trans hr0, by rw [e2]; exact hi0, e3.trans hp0⟩]
        exact g4 (by rw [d1]; exact hd)
  · -- only removals
    have hi0 : w.ins fl = [] := by
      rw [hins, List.filter_eq_nil_iff]
      intro o ho
      obtain ⟨x, hx, r, hr, hf, rfl⟩ := hE o ho
      have := hremv x hx r hr hf
      simp only [Sub.isIns, decide_eq_true_eq]
      intro ⟨q1, q2⟩
      simp only [Sub.elemOf] at q1 q2
      rcases this with e | e
      · exact q2 e.symm
      · rw [e] at q2; exact q2 q1
    have hp0 : w.rep fl = [] := by
      rw [hrep, List.filter_eq_nil_iff]
      intro o ho
      obtain ⟨x, hx, r, hr, hf, rfl⟩ := hE o ho
      have := hremv x hx r hr hf
      simp only [Sub.isRep, decide_eq_true_eq]
      intro ⟨q1, q2, q3⟩
      simp only [Sub.elemOf] at q1 q2 q3
      rcases this with e | e
      · exact q2 e.symm
      · exact q3 e.symm
    by_cases hr0 : w.rem fl = []
    · have hall : ∀ o ∈ Sub.onFl fl (Sub.elems c s (pos.zip spins)), o.new = o.cur := by
        intro o ho
        have f1 := List.filter_eq_nil_iff.mp (hrem ▸ hr0) o ho
        have f2 := List.filter_eq_nil_iff.mp (hins ▸ hi0) o ho
        have f3 := List.filter_eq_nil_iff.mp (hrep ▸ hp0) o ho
        exact hnone o ho (by simpa using f1) (by simpa using f2) (by simpa using f3)
      have hcur : ∀ i < (s.invA fl).cr.length,
          c.cur (s.invA fl) (flipAll s.verts (pos.zip spins)) i = c.cur (s.invA fl) s.verts i := by
        have := (opsOK_filter ht h hT hfl (fun _ => false) (fun o ho _ => hall o ho)).off
        intro i hi
        exact this i hi (by simp)
      have hdd : detFl c (flipAll s.verts (pos.zip spins)) fl = detFl c s.verts fl := by
        rw [← d0, ← d1]
        unfold detAF
        refine detN_congr fun i hi j hj => ?_
        unfold specA
        simp only []
        rw [hcur j hj]
      refine ⟨s.gam fl, ?_, ?_, ?_⟩
      · unfold Sub.tryFlavor
        rw [if_pos ⟨hr0, hi0, hp0⟩, hdd, div_self (detFl_ne_zero ht h hfl)]
      · intro s' e1 e2 e3
        unfold Sub.rejectFlavor
        rw [if_pos ⟨e1.trans hr0, e2.trans hi0, e3.trans hp0⟩]
        exact ⟨_, rfl, rfl, rfl⟩
      · intro s' e1 e2 e3 _
        unfold Sub.performFlavor
        rw [if_pos ⟨e1.trans hr0, e2.trans hi0, e3.trans hp0⟩]
        refine ⟨_, rfl, hF.setup, ?_, hok', hF.inv⟩
        have hI := hF.info
        exact ⟨hI.nodup, hI.lt, hI.a0, fun r hr => by rw [hI.a r hr, hcur _ (hI.lt r hr)], hI.ne,
          fun i hi hn => by rw [hcur i hi]; exact hI.cover i hi hn⟩
    · have hO := opsOK_filter ht h hT hfl Sub.isRem (fun o ho hq => by
        have f1 := List.filter_eq_nil_iff.mp (hins ▸ hi0) o ho
        have f3 := List.filter_eq_nil_iff.mp (hrep ▸ hp0) o ho
        exact hnone o ho hq (by simpa using f1) (by simpa using f3))
      rw [← hrem] at hO
      have hmem : ∀ o ∈ w.rem fl, Sub.isRem o = true := by
        intro o ho; rw [hrem] at ho; exact (List.mem_filter.mp ho).2
      obtain ⟨G', e, g1, g2, g3⟩ := tryRemove_spec hF hO
        (fun o ho => by have := hmem o ho; simp only [Sub.isRem, decide_eq_true_eq] at this; exact fun q => this.1 q.symm)
        (fun o ho => by have := hmem o ho; simp only [Sub.isRem, decide_eq_true_eq] at this; exact this.2.symm)
        hr0 (junk fl)
      refine ⟨G', ?_, ?_, ?_⟩
      · unfold Sub.tryFlavor
        rw [if_neg (by simp [hr0]), if_neg (by simp [hr0]), if_pos ⟨hr0, hi0, hp0⟩, e, d0, d1]
      · intro s' e1 e2 e3
        unfold Sub.rejectFlavor
        rw [if_neg (by rw [e1]; simp [hr0]), if_neg (by rw [e1]; simp [hr0]),
          if_pos ⟨by rw [e1]; exact hr0, e2.trans hi0, e3.trans hp0⟩]
        exact ⟨_, rfl, g1, g2⟩
      · intro s' e1 e2 e3 hd
        unfold Sub.performFlavor
        rw [if_neg (by rw [e1]; simp [hr0]), if_neg (by rw [e1]; simp [hr0]),
          if_pos ⟨by rw [e1]; exact hr0, e2.trans hi0, e3.trans hp0⟩]
        exact g3 (by rw [d1]; exact hd)

end trial
end CTInt
