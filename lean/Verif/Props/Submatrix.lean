import Verif.Proofs.SubRun
import Verif.Proofs.Scratch

/-!
# Histories of a `SubmatrixUpdate` object: C03, C05, C07, C08, C09, C10

`Sub.create`, `Sub.run` are the modelled code (`Verif.Model.Submatrix`, `Verif.Model.SubmatrixRun`);
`J` supplies the contents of uninitialised memory and is arbitrary.
`Abs.init`, `Abs.run`, `AllAdmissible`, `GoodStart` (`Verif.Spec.Machine`) and `weight`, `detAll`, `rowG`
(`Verif.Spec.Config`) are the specification.
-/

set_option linter.all false

namespace CTInt

variable {K : Type} [RCLike K] [DecidableEq K]
variable {c : Ctx K}

theorem Abs.run_append (a : Abs) (l l' : List Call) : a.run (l ++ l') = (a.run l).run l' := List.foldl_append ..

theorem AllAdmissible.append {NI : K} {nf : ℕ} {G0 : Op → Op → K} {tbl : List (VDef K)} {a : Abs} {l l' : List Call} :
    AllAdmissible NI nf G0 tbl a (l ++ l') ↔
      AllAdmissible NI nf G0 tbl a l ∧ AllAdmissible NI nf G0 tbl (a.run l) l' := by
  induction l generalizing a with
  | nil => simp [AllAdmissible, Abs.run]
  | cons x l ih =>
    show _ ∧ AllAdmissible NI nf G0 tbl (a.step x) (l ++ l') ↔ (_ ∧ AllAdmissible NI nf G0 tbl (a.step x) l) ∧ _
    rw [ih, and_assoc]
    rfl

/-! ## C08 -/

/-- The object's list and counter are those of the specification. -/
def Agree (s : Sub K) (a : Abs) : Prop := s.verts = a.cfg ∧ s.uid = a.lastId

theorem setSpins_ok {vs vs' : List Vert} {ps : List (ℕ × ℤ)}
    (h : Res.foldl (fun vs (x : ℕ × ℤ) => Sub.setSpin vs x.1 x.2) vs ps = .ok vs') : vs' = flipAll vs ps := by
  induction ps generalizing vs with
  | nil => cases h; rfl
  | cons x ps ih =>
    rw [Res.foldl_cons, Res.bind_eq_ok] at h
    obtain ⟨v1, e1, e2⟩ := h
    have hx : x.1 < vs.length := by
      by_contra hx
      unfold Sub.setSpin at e1
      rw [List.getElem?_eq_none (by omega)] at e1
      cases e1
    rw [setSpin_eq hx] at e1
    cases e1
    exact ih e2

theorem call_agree {s s' : Sub K} {a : Abs} {J : ℕ → ℕ → ℕ → ℕ → K} {call : Call} (h : Agree s a)
    (e : s.call c J call = .ok s') : Agree s' (a.step call) := by
  obtain ⟨h1, h2⟩ := h
  cases call with
  | start new =>
    unfold Sub.call Sub.initUpdate at e
    simp only [Res.bind_eq_ok] at e
    obtain ⟨_, _, _, _, I1, _, I2, _, e⟩ := e
    cases e
    refine ⟨?_, by show s.uid + _ = _; rw [h2]; rfl⟩
    simp only [withIds_fresh, h1, h2]
    rfl
  | flip pos spins acc =>
    unfold Sub.call at e
    simp only [Res.bind_eq_ok] at e
    obtain ⟨⟨s1, x⟩, e1, e2⟩ := e
    have hs : s1.verts = s.verts ∧ s1.uid = s.uid := by
      unfold Sub.trySpinFlip at e1
      simp only [Res.bind_eq_ok] at e1
      obtain ⟨_, _, _, _, _, _, _, _, w, _, g, _, e1⟩ := e1
      cases e1
      exact ⟨rfl, rfl⟩
    cases acc with
    | true =>
      simp only [if_true] at e2
      unfold Sub.performSpinFlip at e2
      simp only [Res.bind_eq_ok] at e2
      obtain ⟨_, _, g, _, _, _, v, e3, e2⟩ := e2
      cases e2
      refine ⟨?_, ?_⟩
      · show v = _
        rw [setSpins_ok e3, hs.1, h1]; rfl
      · show s1.uid = _
        rw [hs.2, h2]; rfl
    | false =>
      simp only [Bool.false_eq_true, if_false] at e2
      unfold Sub.rejectSpinFlip at e2
      simp only [Res.bind_eq_ok] at e2
      obtain ⟨_, _, g, _, e2⟩ := e2
      cases e2
      exact ⟨by show s1.verts = _; rw [hs.1, h1]; rfl, by show s1.uid = _; rw [hs.2, h2]; rfl⟩
  | finish =>
    unfold Sub.call Sub.finalizeUpdate at e
    simp only [Res.bind_eq_ok] at e
    obtain ⟨_, _, _, _, _, _, _, _, _, _, e⟩ := e
    cases e
    exact ⟨by show interacting s.verts = _; rw [h1]; rfl, by show s.uid = _; rw [h2]; rfl⟩
  | recompute =>
    unfold Sub.call Sub.recompute at e
    simp only [Res.bind_eq_ok] at e
    obtain ⟨_, _, _, _, _, _, _, _, e⟩ := e
    cases e
    exact ⟨h1, h2⟩

theorem run_agree {s s' : Sub K} {a : Abs} {J : ℕ → ℕ → ℕ → ℕ → ℕ → K} {calls : List Call} (h : Agree s a)
    (e : s.run c J calls = .ok s') : Agree s' (a.run calls) := by
  induction calls generalizing s a with
  | nil => cases e; exact h
  | cons x l ih =>
    unfold Sub.run at e
    rw [Res.bind_eq_ok] at e
    obtain ⟨s1, e1, e2⟩ := e
    exact ih (call_agree h e1) e2

theorem create_agree {vs : List Vert} {s : Sub K} (e : Sub.create c vs = .ok s) : Agree s (Abs.init vs) := by
  unfold Sub.create at e
  by_cases h : vs.length ≠ 0
  · rw [if_pos h] at e
    simp only [Res.bind_eq_ok] at e
    obtain ⟨x, _, e⟩ := e
    cases e
    exact ⟨withIds_numbered _ _, rfl⟩
  · rw [if_neg h] at e
    have h0 : vs = [] := List.length_eq_zero_iff.mp (by omega)
    subst h0
    cases e
    exact ⟨rfl, rfl⟩

/-- C08: after any calls that return, the vertex list is the initial list with exactly the accepted edits applied.
    No condition on the calls or the interaction. -/
theorem C08_vertex_list {vs : List Vert} {calls : List Call} {J : ℕ → ℕ → ℕ → ℕ → ℕ → K} {s0 s : Sub K}
    (h0 : Sub.create c vs = .ok s0) (h : s0.run c J calls = .ok s) :
    s.verts = ((Abs.init vs).run calls).cfg := (run_agree (create_agree h0) h).1

/-- C08: finishing a batch drops the non-interacting vertices and nothing else, keeping order and attributes. -/
theorem C08_finish {s s' : Sub K} {j1 j2 j3 : ℕ → ℕ → ℕ → K} (h : s.finalizeUpdate c j1 j2 j3 = .ok s') :
    s'.verts.Sublist s.verts ∧ ∀ v, v ∈ s'.verts ↔ v ∈ s.verts ∧ v.nonInt = false := by
  unfold Sub.finalizeUpdate at h
  simp only [Res.bind_eq_ok] at h
  obtain ⟨_, _, _, _, _, _, _, _, _, _, e⟩ := h
  cases e
  refine ⟨List.filter_sublist, fun v => ?_⟩
  simp

/-- C08: every admissible history does return. -/
theorem C08_runs (ht : TblOK c.NI c.nf c.tbl) {vs : List Vert} (hs : GoodStart c.NI c.nf c.G0 c.tbl vs)
    {calls : List Call} (ha : AllAdmissible c.NI c.nf c.G0 c.tbl (Abs.init vs) calls)
    (J : ℕ → ℕ → ℕ → ℕ → ℕ → K) :
    ∃ s0 s, Sub.create c vs = .ok s0 ∧ s0.run c J calls = .ok s ∧ s.verts = ((Abs.init vs).run calls).cfg := by
  obtain ⟨s0, e0, m0⟩ := create_means ht hs
  obtain ⟨s, e, m⟩ := run_spec ht m0 ha J
  exact ⟨s0, s, e0, e, m.cfg⟩

/-! ## C09 -/

theorem fresh_uid {k : ℕ} {vs : List Vert} {v : Vert} (h : v ∈ fresh k vs) : k < v.uid ∧ v.uid ≤ k + vs.length := by
  induction vs generalizing k with
  | nil => cases h
  | cons w vs ih =>
    rw [fresh, List.mem_cons] at h
    rcases h with rfl | h
    · exact ⟨by show k < k + 1; omega, by show k + 1 ≤ _; simp⟩
    · have := ih h
      rw [List.length_cons]
      omega

theorem fresh_length (k : ℕ) (vs : List Vert) : (fresh k vs).length = vs.length := by
  induction vs generalizing k with
  | nil => rfl
  | cons w vs ih => rw [fresh, List.length_cons, ih, List.length_cons]

theorem fresh_nodup (k : ℕ) (vs : List Vert) : ((fresh k vs).map Vert.uid).Nodup := by
  induction vs generalizing k with
  | nil => simp [fresh]
  | cons w vs ih =>
    rw [fresh, List.map_cons, List.nodup_cons]
    refine ⟨?_, ih _⟩
    intro h
    obtain ⟨v, hv, e⟩ := List.mem_map.mp h
    have := (fresh_uid hv).1
    rw [e] at this
    exact absurd this (by simp)

theorem numbered_uid {k : ℕ} {vs : List Vert} {v : Vert} (h : v ∈ numbered k vs) : k < v.uid ∧ v.uid ≤ k + vs.length := by
  induction vs generalizing k with
  | nil => cases h
  | cons w vs ih =>
    rw [numbered, List.mem_cons] at h
    rcases h with rfl | h
    · exact ⟨by show k < k + 1; omega, by show k + 1 ≤ _; simp⟩
    · have := ih h
      rw [List.length_cons]
      omega

theorem numbered_nodup (k : ℕ) (vs : List Vert) : ((numbered k vs).map Vert.uid).Nodup := by
  induction vs generalizing k with
  | nil => simp [numbered]
  | cons w vs ih =>
    rw [numbered, List.map_cons, List.nodup_cons]
    refine ⟨?_, ih _⟩
    intro h
    obtain ⟨v, hv, e⟩ := List.mem_map.mp h
    have := (numbered_uid hv).1
    rw [e] at this
    exact absurd this (by simp)

/-- Ids are distinct and at most the last id handed out. -/
def Abs.IdsOK (a : Abs) : Prop := (a.cfg.map Vert.uid).Nodup ∧ ∀ v ∈ a.cfg, v.uid ≤ a.lastId

theorem Abs.IdsOK.step {a : Abs} (h : a.IdsOK) (call : Call) : (a.step call).IdsOK ∧ a.lastId ≤ (a.step call).lastId := by
  cases call with
  | start new =>
    refine ⟨⟨?_, ?_⟩, Nat.le_add_right _ _⟩
    · show ((a.cfg ++ fresh a.lastId new).map Vert.uid).Nodup
      rw [List.map_append, List.nodup_append]
      refine ⟨h.1, fresh_nodup _ _, ?_⟩
      intro x hx y hy
      obtain ⟨v, hv, rfl⟩ := List.mem_map.mp hx
      obtain ⟨w, hw, rfl⟩ := List.mem_map.mp hy
      have h1 := h.2 v hv
      have h2 := (fresh_uid hw).1
      omega
    · intro v hv
      rcases List.mem_append.mp hv with hv | hv
      · have h1 := h.2 v hv
        show v.uid ≤ a.lastId + new.length
        omega
      · exact (fresh_uid hv).2
  | flip pos spins acc =>
    cases acc with
    | true =>
      have e := Forall₂_uids (flipAll_same a.cfg (pos.zip spins))
      refine ⟨⟨?_, ?_⟩, le_rfl⟩
      · show ((flipAll a.cfg (pos.zip spins)).map Vert.uid).Nodup
        rw [e]; exact h.1
      · intro v hv
        have h1 : v.uid ∈ (flipAll a.cfg (pos.zip spins)).map Vert.uid := List.mem_map_of_mem hv
        rw [e] at h1
        obtain ⟨w, hw, e1⟩ := List.mem_map.mp h1
        rw [← e1]
        exact h.2 w hw
    | false => exact ⟨h, le_rfl⟩
  | finish =>
    refine ⟨⟨?_, ?_⟩, le_rfl⟩
    · exact h.1.sublist (List.Sublist.map _ List.filter_sublist)
    · intro v hv
      exact h.2 v (List.mem_of_mem_filter hv)
  | recompute => exact ⟨h, le_rfl⟩

theorem Abs.IdsOK.run {a : Abs} (h : a.IdsOK) (calls : List Call) :
    (a.run calls).IdsOK ∧ a.lastId ≤ (a.run calls).lastId := by
  induction calls generalizing a with
  | nil => exact ⟨h, le_rfl⟩
  | cons x l ih =>
    obtain ⟨h1, h2⟩ := h.step x
    obtain ⟨h3, h4⟩ := ih h1
    exact ⟨h3, h2.trans h4⟩

theorem Abs.init_idsOK (vs : List Vert) : (Abs.init vs).IdsOK :=
  ⟨numbered_nodup 0 vs, fun v hv => by have := (numbered_uid hv).2; show v.uid ≤ vs.length; omega⟩

/-- C09: after any calls that return, all vertices held carry different ids. -/
theorem C09_distinct {vs : List Vert} {calls : List Call} {J : ℕ → ℕ → ℕ → ℕ → ℕ → K} {s0 s : Sub K}
    (h0 : Sub.create c vs = .ok s0) (h : s0.run c J calls = .ok s) : (s.verts.map Vert.uid).Nodup := by
  rw [C08_vertex_list h0 h]
  exact ((Abs.init_idsOK vs).run calls).1.1

/-- C09: the ids handed out when a batch is opened differ from every id held at any earlier moment (`s1`), whatever
    happened in between. -/
theorem C09_never_reused {vs new : List Vert} {calls1 calls2 : List Call} {J1 J2 : ℕ → ℕ → ℕ → ℕ → ℕ → K}
    {J3 : ℕ → ℕ → ℕ → ℕ → K} {s0 s1 s2 s3 : Sub K} (h0 : Sub.create c vs = .ok s0)
    (h1 : s0.run c J1 calls1 = .ok s1) (h2 : s1.run c J2 calls2 = .ok s2) (h3 : s2.call c J3 (.start new) = .ok s3) :
    ∃ N, s3.verts = s2.verts ++ N ∧ N.length = new.length ∧ ∀ n ∈ N, ∀ v ∈ s1.verts, n.uid ≠ v.uid := by
  have a1 := run_agree (create_agree h0) h1
  have a2 := run_agree a1 h2
  have a3 := call_agree a2 h3
  have i1 := ((Abs.init_idsOK vs).run calls1).1
  have i2 := i1.run calls2
  refine ⟨fresh (((Abs.init vs).run calls1).run calls2).lastId new, ?_, fresh_length _ _, ?_⟩
  · rw [a3.1, a2.1]; rfl
  · intro n hn v hv
    rw [a1.1] at hv
    have q1 := (fresh_uid hn).1
    have q2 := i1.2 v hv
    omega

/-! ## C03 and C05 -/

/-- C03 (partial): the determinant ratio reported by a trial after any admissible history of the object is
    det(A_new)/det(A_current), both built from scratch and multiplied over the flavors.
    Trials that on one flavor both leave and restore batch-start fields are covered if det A half way is not zero.
    Missing: the latter with det A half way zero (the code divides by it), and histories in which such a trial was
    accepted while another field stayed away from its batch-start value (`C03_perform_add_remove_violation`). -/
theorem C03_trial_ratio_partial (ht : TblOK c.NI c.nf c.tbl) {vs : List Vert}
    (hs : GoodStart c.NI c.nf c.G0 c.tbl vs) {calls : List Call}
    (ha : AllAdmissible c.NI c.nf c.G0 c.tbl (Abs.init vs) calls) {a : Abs} (hA : a = (Abs.init vs).run calls)
    (hop : a.isOpen = true) {pos : List ℕ} {spins : List ℤ} (hw : WellFormed c.tbl a.cfg pos spins)
    (htr : ∀ fl < c.nf, FlavorTrial c.NI c.tbl a.base a.cfg (pos.zip spins) false fl)
    (hmid : ∀ fl < c.nf, FlavorRatio c.NI c.G0 c.tbl a.base a.cfg (pos.zip spins) fl) (J : ℕ → ℕ → ℕ → ℕ → ℕ → K) :
    ∃ s0 s s' p f u, Sub.create c vs = .ok s0 ∧ s0.run c J calls = .ok s ∧
      s.trySpinFlip c pos spins = .ok (s', p, f, u) ∧ detAll c.NI c.nf c.G0 c.tbl a.cfg ≠ 0 ∧
      p = detAll c.NI c.nf c.G0 c.tbl (flipAll a.cfg (pos.zip spins)) / detAll c.NI c.nf c.G0 c.tbl a.cfg := by
  obtain ⟨s0, e0, m0⟩ := create_means ht hs
  obtain ⟨s, e, m⟩ := run_spec ht m0 ha J
  rw [← hA] at m
  obtain ⟨hb, hI⟩ := m.op hop
  rw [← m.cfg] at hw
  rw [← m.cfg, ← hb] at htr hmid
  obtain ⟨s', p, e', ep, _⟩ := trySpinFlip_spec ht hI hw.trialOK htr (fun _ _ _ => 0)
  refine ⟨s0, s, s', _, _, _, e0, e, e', ?_, ?_⟩
  · rw [← m.cfg]; exact detAll_ne_zero ht hI
  · rw [ep hmid, m.cfg]

/-- C05 (partial): the product of the three numbers returned by a trial is the ratio of the from-scratch weights.
    Missing: the trials missing in `C03_trial_ratio_partial`. -/
theorem C05_trial_weight_ratio_partial (ht : TblOK c.NI c.nf c.tbl) {vs : List Vert}
    (hs : GoodStart c.NI c.nf c.G0 c.tbl vs) {calls : List Call}
    (ha : AllAdmissible c.NI c.nf c.G0 c.tbl (Abs.init vs) calls) {a : Abs} (hA : a = (Abs.init vs).run calls)
    (hop : a.isOpen = true) {pos : List ℕ} {spins : List ℤ} (hw : WellFormed c.tbl a.cfg pos spins)
    (htr : ∀ fl < c.nf, FlavorTrial c.NI c.tbl a.base a.cfg (pos.zip spins) false fl)
    (hmid : ∀ fl < c.nf, FlavorRatio c.NI c.G0 c.tbl a.base a.cfg (pos.zip spins) fl) (J : ℕ → ℕ → ℕ → ℕ → ℕ → K) :
    ∃ s0 s s' p f u, Sub.create c vs = .ok s0 ∧ s0.run c J calls = .ok s ∧
      s.trySpinFlip c pos spins = .ok (s', p, f, u) ∧ weight c.NI c.nf c.G0 c.tbl a.cfg ≠ 0 ∧
      p * f * u = weight c.NI c.nf c.G0 c.tbl (flipAll a.cfg (pos.zip spins)) / weight c.NI c.nf c.G0 c.tbl a.cfg := by
  obtain ⟨s0, e0, m0⟩ := create_means ht hs
  obtain ⟨s, e, m⟩ := run_spec ht m0 ha J
  rw [← hA] at m
  obtain ⟨hb, hI⟩ := m.op hop
  rw [← m.cfg] at hw
  rw [← m.cfg, ← hb] at htr hmid
  obtain ⟨s', p, e', ep, _⟩ := trySpinFlip_spec ht hI hw.trialOK htr (fun _ _ _ => 0)
  refine ⟨s0, s, s', _, _, _, e0, e, e', ?_, ?_⟩
  · rw [← m.cfg]; exact hI.weight_ne_zero ht
  · have hok := flipAll_ok ht hI hw.trialOK
    rw [ep hmid, ← m.cfg, weight_eq_detAll ht hok, weight_eq_detAll ht hI.ok]
    have h1 := detAll_ne_zero ht hI
    have h2 := fAll_ne_zero ht hI.ok
    have h3 := fAll_ne_zero ht hok
    have h4 := uWeight_ne_zero ht hI.ok
    field_simp

/-- C05: between batches, after any admissible history, the matrices handed to measurements are the inverses of
    G0 - α for the operator pairs of the configuration (in some order), computed either way; the sign held by the
    object is the phase of the from-scratch weight, and the from-scratch routine of the object returns that sign
    and that weight. -/
theorem C05_M_and_weight (ht : TblOK c.NI c.nf c.tbl) {vs : List Vert} (hs : GoodStart c.NI c.nf c.G0 c.tbl vs)
    {calls : List Call} (ha : AllAdmissible c.NI c.nf c.G0 c.tbl (Abs.init vs) calls) {a : Abs}
    (hA : a = (Abs.init vs).run calls) (hcl : a.isOpen = false) (J : ℕ → ℕ → ℕ → ℕ → ℕ → K) :
    ∃ s0 s M M', Sub.create c vs = .ok s0 ∧ s0.run c J calls = .ok s ∧ s.computeM c = .ok M ∧
      s.computeMScratch c = .ok (M', s.sign, weight c.NI c.nf c.G0 c.tbl a.cfg) ∧
      s.sign = mysign (weight c.NI c.nf c.G0 c.tbl a.cfg) ∧ weight c.NI c.nf c.G0 c.tbl a.cfg ≠ 0 ∧
      ∀ fl < c.nf, ∃ l : List (OpRow K), l.Perm (rowsOf c.NI c.tbl a.cfg fl) ∧
        l = (s.invA fl).rowList ∧ IsInvOf (M fl) l.length (rowG c.G0 l) ∧
        IsInvOf (M' fl) l.length (rowG c.G0 l) := by
  obtain ⟨s0, e0, m0⟩ := create_means ht hs
  obtain ⟨s, e, m⟩ := run_spec ht m0 ha J
  rw [← hA] at m
  have hR := m.cl hcl
  have hw := ready_weight_ne_zero ht hR
  obtain ⟨M, e1, q1⟩ := computeM_spec ht hR
  obtain ⟨M', e2, q2⟩ := computeMScratch_spec ht hR hw
  rw [m.cfg] at e2 hw
  refine ⟨s0, s, M, M', e0, e, e1, e2, ?_, hw, ?_⟩
  · rw [hR.sgn, m.cfg]
  · intro fl hfl
    exact ⟨(s.invA fl).rowList, by rw [← m.cfg]; exact hR.rows fl hfl, rfl, q1 fl hfl, q2 fl hfl⟩

/-- C05: the weight routine used by global updates returns the weight of a list of interacting vertices. -/
theorem C05_compute_weight (ht : TblOK c.NI c.nf c.tbl) {vs : List Vert} (hv : ∀ v ∈ vs, VertOK c.tbl v)
    (hi : ∀ v ∈ vs, v.nonInt = false) (hr : ∀ v ∈ vs, v.rank = (termOf c.tbl v).rank) :
    computeWeight c vs = .ok (weight c.NI c.nf c.G0 c.tbl vs) := computeWeight_spec ht hv hi hr

/-! ## C07 -/

theorem Means.sign {s : Sub K} {a : Abs} (h : Means c s a) :
    s.sign = mysign (weight c.NI c.nf c.G0 c.tbl a.cfg) ∧ s.signDetA = mysign (detAll c.NI c.nf c.G0 c.tbl a.cfg) := by
  rcases hb : a.isOpen with _ | _
  · have := h.cl hb
    rw [← h.cfg]; exact ⟨this.sgn, this.sgnA⟩
  · have := (h.op hb).2
    rw [← h.cfg]; exact ⟨this.sgn, this.sgnA⟩

/-- C07: a rejected trial leaves the vertices (with their fields), the saved batch-start vertices, A⁻¹, the operators
    of the Gamma matrices up to order, the signs and the id counter as they were; the Gamma matrices themselves are
    untouched unless the trial both leaves and restores batch-start fields on that flavor. -/
theorem C07_reject_restores (ht : TblOK c.NI c.nf c.tbl) {vs : List Vert}
    (hs : GoodStart c.NI c.nf c.G0 c.tbl vs) {calls : List Call}
    (ha : AllAdmissible c.NI c.nf c.G0 c.tbl (Abs.init vs) calls) {a : Abs} (hA : a = (Abs.init vs).run calls)
    (hop : a.isOpen = true) {pos : List ℕ} {spins : List ℤ} (hw : WellFormed c.tbl a.cfg pos spins)
    (htr : ∀ fl < c.nf, FlavorTrial c.NI c.tbl a.base a.cfg (pos.zip spins) false fl) (J : ℕ → ℕ → ℕ → ℕ → ℕ → K) :
    ∃ s0 s s' s'' x, Sub.create c vs = .ok s0 ∧ s0.run c J calls = .ok s ∧
      s.trySpinFlip c pos spins = .ok (s', x) ∧ s'.rejectSpinFlip c = .ok s'' ∧
      s''.verts = s.verts ∧ s''.verts0 = s.verts0 ∧ s''.invA = s.invA ∧ s''.sign = s.sign ∧
      s''.signDetA = s.signDetA ∧ s''.uid = s.uid ∧ s''.trying = s.trying ∧
      (∀ fl, ((s''.gam fl).info).Perm (s.gam fl).info) ∧
      ∀ fl, (fl < c.nf → OnlyLeaves c.NI c.tbl a.base a.cfg (pos.zip spins) fl ∨
          OnlyReturns c.NI c.tbl a.base a.cfg (pos.zip spins) fl) →
        (s''.gam fl).mat = (s.gam fl).mat ∧ (s''.gam fl).info = (s.gam fl).info := by
  obtain ⟨s0, e0, m0⟩ := create_means ht hs
  obtain ⟨s, e, m⟩ := run_spec ht m0 ha J
  rw [← hA] at m
  obtain ⟨hb, hI⟩ := m.op hop
  rw [← m.cfg] at hw
  rw [← m.cfg, ← hb] at htr
  obtain ⟨s', p, e', _, ⟨s'', e'', q, q', q''⟩, _⟩ := trySpinFlip_spec ht hI hw.trialOK htr (fun _ _ _ => 0)
  exact ⟨s0, s, s', s'', _, e0, e, e', e'', q.verts, q.verts0, q.invA, q.sign, q.signDetA, q.uid, q.trying,
    q.info, by rw [← m.cfg, ← hb]; exact q''⟩

/-- C07: the remaining trials (some field goes from one value to another, neither being its batch-start value) throw, so
    there is nothing to reject. -/
theorem C07_other_trials_throw (ht : TblOK c.NI c.nf c.tbl) {vs : List Vert}
    (hs : GoodStart c.NI c.nf c.G0 c.tbl vs) {calls : List Call}
    (ha : AllAdmissible c.NI c.nf c.G0 c.tbl (Abs.init vs) calls) {a : Abs} (hA : a = (Abs.init vs).run calls)
    (hop : a.isOpen = true) {pos : List ℕ} {spins : List ℤ} (hw : WellFormed c.tbl a.cfg pos spins)
    (htr : ¬ ∀ fl < c.nf, FlavorTrial c.NI c.tbl a.base a.cfg (pos.zip spins) false fl)
    (J : ℕ → ℕ → ℕ → ℕ → ℕ → K) :
    ∃ s0 s, Sub.create c vs = .ok s0 ∧ s0.run c J calls = .ok s ∧
      s.trySpinFlip c pos spins = .throw .runtimeError := by
  obtain ⟨s0, e0, m0⟩ := create_means ht hs
  obtain ⟨s, e, m⟩ := run_spec ht m0 ha J
  rw [← hA] at m
  obtain ⟨hb, hI⟩ := m.op hop
  rw [← m.cfg] at hw
  rw [← m.cfg, ← hb] at htr
  refine ⟨s0, s, e0, e, trySpinFlip_throws ht hI hw.trialOK ?_⟩
  by_contra hc
  apply htr
  intro fl hfl
  by_contra hn
  apply hc
  exact ⟨fl, hfl, fun q => hn (Or.inr (Or.inr ⟨q, fun e => by cases e⟩))⟩

/-- C07: for every continuation, the history with the rejected trial and the history without it give the same
    vertices, the same signs and the same id counter. -/
theorem C07_no_trace (ht : TblOK c.NI c.nf c.tbl) {vs : List Vert} (hs : GoodStart c.NI c.nf c.G0 c.tbl vs)
    {before after : List Call} {pos : List ℕ} {spins : List ℤ}
    (ha : AllAdmissible c.NI c.nf c.G0 c.tbl (Abs.init vs) (before ++ .flip pos spins false :: after))
    (J J' : ℕ → ℕ → ℕ → ℕ → ℕ → K) :
    ∃ s0 s s', Sub.create c vs = .ok s0 ∧ s0.run c J (before ++ .flip pos spins false :: after) = .ok s ∧
      s0.run c J' (before ++ after) = .ok s' ∧ s.verts = s'.verts ∧ s.sign = s'.sign ∧ s.signDetA = s'.signDetA ∧
      s.uid = s'.uid := by
  obtain ⟨s0, e0, m0⟩ := create_means ht hs
  obtain ⟨s, e, m⟩ := run_spec ht m0 ha J
  have ha' : AllAdmissible c.NI c.nf c.G0 c.tbl (Abs.init vs) (before ++ after) := by
    rw [AllAdmissible.append] at ha ⊢
    exact ⟨ha.1, ha.2.2⟩
  obtain ⟨s', e', m'⟩ := run_spec ht m0 ha' J'
  have hr : (Abs.init vs).run (before ++ .flip pos spins false :: after) = (Abs.init vs).run (before ++ after) := by
    rw [Abs.run_append, Abs.run_append]; rfl
  rw [hr] at m
  refine ⟨s0, s, s', e0, e, e', ?_, ?_, ?_, ?_⟩
  · rw [m.cfg, m'.cfg]
  · rw [m.sign.1, m'.sign.1]
  · rw [m.sign.2, m'.sign.2]
  · rw [m.id, m'.id]

/-! ## C10 -/

/-- C10 (partial): when a batch may be finished.  The English claim asks for success after every batch; that is
    false (`C10_violation`).  True is: finishing succeeds if every vertex to be dropped has operators on every
    flavor, and otherwise it throws. -/
theorem C10_finish_partial (ht : TblOK c.NI c.nf c.tbl) {vs : List Vert} (hs : GoodStart c.NI c.nf c.G0 c.tbl vs)
    {calls : List Call} (ha : AllAdmissible c.NI c.nf c.G0 c.tbl (Abs.init vs) calls) {a : Abs}
    (hA : a = (Abs.init vs).run calls) (hop : a.isOpen = true) (J : ℕ → ℕ → ℕ → ℕ → ℕ → K)
    (j1 j2 j3 : ℕ → ℕ → ℕ → K) :
    ∃ s0 s, Sub.create c vs = .ok s0 ∧ s0.run c J calls = .ok s ∧
      ((∀ v ∈ a.cfg, v.nonInt = true → ∀ fl < c.nf, OnFlavor c.tbl v fl) →
        ∃ s', s.finalizeUpdate c j1 j2 j3 = .ok s') ∧
      (¬ (∀ v ∈ a.cfg, v.nonInt = true → ∀ fl < c.nf, OnFlavor c.tbl v fl) →
        s.finalizeUpdate c j1 j2 j3 = .throw .logicError) := by
  obtain ⟨s0, e0, m0⟩ := create_means ht hs
  obtain ⟨s, e, m⟩ := run_spec ht m0 ha J
  rw [← hA] at m
  obtain ⟨_, hI⟩ := m.op hop
  refine ⟨s0, s, e0, e, ?_, ?_⟩
  · intro h
    rw [← m.cfg] at h
    obtain ⟨s', e', _⟩ := finalizeUpdate_spec ht hI h j1 j2 j3
    exact ⟨s', e'⟩
  · intro h
    rw [← m.cfg] at h
    refine finalizeUpdate_throws ht hI ?_ j1 j2 j3
    by_contra hc
    apply h
    intro v hv hn fl hfl
    by_contra ho
    exact hc ⟨v, hv, hn, fl, hfl, ho⟩

/-! ## A concrete interaction -/

/-- Two flavors, one on-site term between them with two auxiliary-field states, U = 1. -/
noncomputable def exTerm : VDef ℝ := ⟨2, [0, 1], [0, 0, 0, 0], 2, 1, fun s r => if s = r then 2 else -1⟩

/-- The same, with both operator pairs on flavor 0. -/
noncomputable def exTerm' : VDef ℝ := ⟨2, [0, 0], [0, 0, 1, 1], 2, 1, fun s r => if s = r then 2 else -1⟩

noncomputable def exCtx : Ctx ℝ := ⟨100, 2, fun _ _ => 1 / 2, [exTerm]⟩

noncomputable def exCtx' : Ctx ℝ := ⟨100, 2, fun _ _ => 1 / 2, [exTerm']⟩

noncomputable def exVert : Vert := ⟨0, 0, 2, 1, true, false, 0⟩

theorem ex_alpha (s r : ℕ) : GoodAlpha (100 : ℝ) (if s = r then 2 else -1) := by
  unfold GoodAlpha
  split <;> norm_num

theorem ex_tbl : TblOK exCtx.NI exCtx.nf exCtx.tbl where
  fl := by intro d hd; simp only [exCtx, List.mem_singleton] at hd; subst hd; rfl
  si := by intro d hd; simp only [exCtx, List.mem_singleton] at hd; subst hd; rfl
  lt := by
    intro d hd f hf
    simp only [exCtx, List.mem_singleton] at hd
    subst hd
    simp only [exTerm, List.mem_cons, List.not_mem_nil, or_false] at hf
    show f < 2
    omega
  U := by intro d hd; simp only [exCtx, List.mem_singleton] at hd; subst hd; exact one_ne_zero
  al := by
    intro d hd s _ r _
    simp only [exCtx, List.mem_singleton] at hd
    subst hd
    exact ex_alpha s r

theorem ex_tbl' : TblOK exCtx'.NI exCtx'.nf exCtx'.tbl where
  fl := by intro d hd; simp only [exCtx', List.mem_singleton] at hd; subst hd; rfl
  si := by intro d hd; simp only [exCtx', List.mem_singleton] at hd; subst hd; rfl
  lt := by
    intro d hd f hf
    simp only [exCtx', List.mem_singleton] at hd
    subst hd
    simp only [exTerm', List.mem_cons, List.not_mem_nil, or_false] at hf
    show f < 2
    omega
  U := by intro d hd; simp only [exCtx', List.mem_singleton] at hd; subst hd; exact one_ne_zero
  al := by
    intro d hd s _ r _
    simp only [exCtx', List.mem_singleton] at hd
    subst hd
    exact ex_alpha s r

theorem weight_nil (c : Ctx K) : weight c.NI c.nf c.G0 c.tbl [] = 1 := by
  unfold weight detWeight uWeight
  rw [Finset.prod_eq_one]
  · simp [interacting]
  · intro fl _
    exact detN_zero _

/-- The empty configuration is a good start. -/
theorem empty_goodStart (c : Ctx K) : GoodStart c.NI c.nf c.G0 c.tbl [] :=
  ⟨fun v hv => absurd hv (by simp), fun v hv => absurd hv (by simp), by
    show weight c.NI c.nf c.G0 c.tbl [] ≠ 0
    rw [weight_nil]; exact one_ne_zero⟩

/-- The weight of one interacting vertex of the concrete interaction. -/
theorem ex_weight {v : Vert} (h1 : v.type = 0) (h2 : v.nonInt = false) (h3 : v.af = 0) :
    weight exCtx.NI exCtx.nf exCtx.G0 exCtx.tbl [v] = 9 / 4 := by
  have ht : termOf exCtx.tbl v = exTerm := by unfold termOf; rw [h1]; rfl
  have hi : interacting [v] = [v] := by simp [interacting, h2]
  have r0 : rowsOf exCtx.NI exCtx.tbl [v] 0 = [rowOf exCtx.NI exCtx.tbl v 0] := by
    simp [rowsOf, rowsV, ht, exTerm, flavorOf, List.range_succ, List.filter_cons]
  have r1 : rowsOf exCtx.NI exCtx.tbl [v] 1 = [rowOf exCtx.NI exCtx.tbl v 1] := by
    simp [rowsOf, rowsV, ht, exTerm, flavorOf, List.range_succ, List.filter_cons]
  unfold weight detWeight uWeight
  rw [hi]
  show (∏ fl ∈ Finset.range 2, _) * _ = _
  rw [Finset.prod_range_succ, Finset.prod_range_succ, Finset.prod_range_zero, r0, r1]
  simp only [List.length_singleton, List.map_cons, List.map_nil, List.prod_cons, List.prod_nil, ht]
  unfold detN
  rw [Matrix.det_fin_one, Matrix.det_fin_one]
  simp only [toM_apply, rowG, specG, Fin.val_zero, if_true, List.getD_cons_zero, rowOf, fieldOf, h2, ht, h3,
    Bool.false_eq_true, if_false, Int.toNat_zero]
  simp only [exTerm, exCtx]
  norm_num

/-- Open a batch with two candidates, reject one insertion, accept the other, close, recompute. -/
noncomputable def exCalls : List Call :=
  [.start [exVert, exVert], .flip [1] [1] false, .flip [0] [0] true, .finish, .recompute]

theorem ex_onFlavor {v : Vert} (h : v.type = 0) {fl : ℕ} (hfl : fl < 2) : OnFlavor exCtx.tbl v fl := by
  have ht : termOf exCtx.tbl v = exTerm := by unfold termOf; rw [h]; rfl
  refine ⟨fl, by rw [ht]; exact hfl, ?_⟩
  unfold flavorOf
  rw [ht]
  rcases fl with _ | _ | fl
  · rfl
  · rfl
  · omega

/-- The hypotheses of the theorems above hold for a concrete history with a rejected and an accepted trial. -/
theorem ex_admissible : AllAdmissible exCtx.NI exCtx.nf exCtx.G0 exCtx.tbl (Abs.init []) exCalls := by
  have ht : ∀ v : Vert, v.type = 0 → termOf exCtx.tbl v = exTerm := by
    intro v h; unfold termOf; rw [h]; rfl
  refine ⟨⟨rfl, ?_⟩, ⟨rfl, ⟨rfl, by simp, ?_, ?_⟩, ?_, ?_⟩, ⟨rfl, ⟨rfl, by simp, ?_, ?_⟩, ?_, ?_⟩, ⟨rfl, ?_⟩, rfl, trivial⟩
  · intro v hv
    have : v.type = 0 := by
      simp only [List.mem_cons, List.not_mem_nil, or_false, or_self] at hv
      rw [hv]; rfl
    rw [this]; exact Nat.one_pos
  · intro p hp; simp only [List.mem_singleton] at hp; subst hp; show 1 < 2; omega
  · intro x hx
    simp only [List.zip_cons_cons, List.zip_nil_right, List.mem_singleton] at hx
    subst hx
    right
    rw [ht _ rfl]
    exact ⟨by decide, by decide⟩
  · intro fl _
    left
    intro x _ r _ _
    exact Or.inl rfl
  · intro h; cases h
  · intro p hp; simp only [List.mem_singleton] at hp; subst hp; show 0 < 2; omega
  · intro x hx
    simp only [List.zip_cons_cons, List.zip_nil_right, List.mem_singleton] at hx
    subst hx
    right
    rw [ht _ rfl]
    exact ⟨by decide, by decide⟩
  · intro fl _
    left
    intro x _ r _ _
    exact Or.inl rfl
  · intro _
    rw [← weight_interacting]
    have := ex_weight (v := ⟨0, 0, 2, 1, true, false, 1⟩) rfl rfl rfl
    show weight exCtx.NI exCtx.nf exCtx.G0 exCtx.tbl [⟨0, 0, 2, 1, true, false, 1⟩] ≠ 0
    rw [this]
    norm_num
  · intro v hv _ fl hfl
    refine ex_onFlavor ?_ hfl
    have hv : v ∈ [(⟨0, 0, 2, 1, true, false, 1⟩ : Vert), ⟨0, 0, 2, 1, true, true, 2⟩] := hv
    simp only [List.mem_cons, List.not_mem_nil, or_false] at hv
    rcases hv with rfl | rfl <;> rfl

/-- C03, C05, C07, C08, C09 apply to the concrete history. -/
example : ∃ s0 s, Sub.create exCtx [] = .ok s0 ∧ s0.run exCtx (fun _ _ _ _ _ => 0) exCalls = .ok s ∧
    s.verts = [⟨0, 0, 2, 1, true, false, 1⟩] :=
  C08_runs ex_tbl (empty_goodStart exCtx) ex_admissible _

example : ∃ s0 s M M', Sub.create exCtx [] = .ok s0 ∧ s0.run exCtx (fun _ _ _ _ _ => 0) exCalls = .ok s ∧
    s.computeM exCtx = .ok M ∧ s.computeMScratch exCtx = .ok (M', s.sign, 9 / 4) := by
  obtain ⟨s0, s, M, M', h1, h2, h3, h4, _⟩ := C05_M_and_weight ex_tbl (empty_goodStart exCtx) ex_admissible rfl rfl
    (fun _ _ _ _ _ => 0)
  exact ⟨s0, s, M, M', h1, h2, h3, by rw [h4, ← ex_weight (v := ⟨0, 0, 2, 1, true, false, 1⟩) rfl rfl rfl]; rfl⟩

/-- Insert one vertex, then in one trial remove it and insert the other: both flavors leave and restore batch-start
    fields at once. -/
noncomputable def exMixed : List Call :=
  [.start [exVert, exVert], .flip [0] [0] true, .flip [0, 1] [-1, 0] true, .finish]

theorem ex_mixed_admissible : AllAdmissible exCtx.NI exCtx.nf exCtx.G0 exCtx.tbl (Abs.init []) exMixed := by
  have ht : ∀ v : Vert, v.type = 0 → termOf exCtx.tbl v = exTerm := by
    intro v h; unfold termOf; rw [h]; rfl
  obtain ⟨h1, _, h3, _⟩ := ex_admissible
  refine ⟨h1, h3, ⟨rfl, ⟨rfl, by simp, ?_, ?_⟩, ?_, ?_⟩, ⟨rfl, ?_⟩, trivial⟩
  · intro p hp
    simp only [List.mem_cons, List.not_mem_nil, or_false] at hp
    show p < 2; omega
  · intro x hx
    simp only [List.zip_cons_cons, List.zip_nil_right, List.mem_cons, List.not_mem_nil, or_false] at hx
    rcases hx with rfl | rfl
    · left; rfl
    · right
      rw [ht _ rfl]
      exact ⟨by decide, by decide⟩
  · intro fl _
    right; right
    refine ⟨?_, ?_⟩
    · intro x hx r _ _
      simp only [List.zip_cons_cons, List.zip_nil_right, List.mem_cons, List.not_mem_nil, or_false] at hx
      rcases hx with rfl | rfl
      · exact Or.inr (Or.inl rfl)
      · exact Or.inl rfl
    · intro _ i hi r _ _
      have hi : i < 2 := hi
      rcases i with _ | _ | i
      · exact Or.inr rfl
      · exact Or.inl rfl
      · omega
  · intro _
    rw [← weight_interacting]
    have := ex_weight (v := ⟨0, 0, 2, 1, true, false, 2⟩) rfl rfl rfl
    show weight exCtx.NI exCtx.nf exCtx.G0 exCtx.tbl [⟨0, 0, 2, 1, true, false, 2⟩] ≠ 0
    rw [this]
    norm_num
  · intro v hv _ fl hfl
    refine ex_onFlavor ?_ hfl
    have hv : v ∈ [(⟨0, 0, 2, 1, true, true, 1⟩ : Vert), ⟨0, 0, 2, 1, true, false, 2⟩] := by
      exact hv
    simp only [List.mem_cons, List.not_mem_nil, or_false] at hv
    rcases hv with rfl | rfl <;> rfl

example : ∃ s0 s, Sub.create exCtx [] = .ok s0 ∧ s0.run exCtx (fun _ _ _ _ _ => 0) exMixed = .ok s ∧
    s.verts = [⟨0, 0, 2, 1, true, false, 2⟩] :=
  C08_runs ex_tbl (empty_goodStart exCtx) ex_mixed_admissible _

/-- C03 and C05: after opening a batch with two candidates a trial that inserts the first one reports a weight
    ratio of 9/4. -/
example : ∃ s0 s s' p f u, Sub.create exCtx [] = .ok s0 ∧
    s0.run exCtx (fun _ _ _ _ _ => 0) [.start [exVert, exVert]] = .ok s ∧
    s.trySpinFlip exCtx [0] [0] = .ok (s', p, f, u) ∧ p * f * u = 9 / 4 := by
  obtain ⟨h1, h2, h3, h4, h5, _⟩ := ex_admissible
  obtain ⟨s0, s, s', p, f, u, e1, e2, e3, _, e4⟩ := C05_trial_weight_ratio_partial ex_tbl (empty_goodStart exCtx)
    (calls := [.start [exVert, exVert]]) ⟨h1, trivial⟩ rfl rfl h3.2.1
    (fun fl hfl => Or.inl fun x _ r _ _ => Or.inl rfl) (fun fl hfl => Or.inl fun x _ r _ _ => Or.inl rfl) (fun _ _ _ _ _ => 0)
  refine ⟨s0, s, s', p, f, u, e1, e2, e3, ?_⟩
  rw [e4, ← weight_interacting (K := ℝ), ← weight_interacting (vs := Abs.cfg _)]
  show weight exCtx.NI exCtx.nf exCtx.G0 exCtx.tbl [⟨0, 0, 2, 1, true, false, 1⟩] /
    weight exCtx.NI exCtx.nf exCtx.G0 exCtx.tbl [] = _
  rw [ex_weight (v := ⟨0, 0, 2, 1, true, false, 1⟩) rfl rfl rfl, weight_nil, div_one]

/-- C10 fails: a valid interaction whose only term acts on flavor 0 (of two flavors).  Opening a batch with one
    candidate vertex and finishing it at once throws. -/
theorem C10_violation (J : ℕ → ℕ → ℕ → ℕ → ℕ → ℝ) (j1 j2 j3 : ℕ → ℕ → ℕ → ℝ) :
    TblOK exCtx'.NI exCtx'.nf exCtx'.tbl ∧
    ∃ s0 s, Sub.create exCtx' [] = .ok s0 ∧ s0.run exCtx' J [.start [exVert]] = .ok s ∧
      s.finalizeUpdate exCtx' j1 j2 j3 = .throw .logicError := by
  refine ⟨ex_tbl', ?_⟩
  obtain ⟨s0, s, h1, h2, _, h3⟩ := C10_finish_partial ex_tbl' (empty_goodStart exCtx') (calls := [.start [exVert]])
    ⟨⟨rfl, fun v hv => by simp only [List.mem_singleton] at hv; rw [hv]; exact Nat.one_pos⟩, trivial⟩ rfl rfl J j1 j2 j3
  refine ⟨s0, s, h1, h2, h3 ?_⟩
  intro h
  obtain ⟨r, hr, e⟩ := h ⟨0, 0, 2, 1, true, true, 1⟩ (by show _ ∈ [_]; exact List.mem_singleton.mpr rfl) rfl 1
    (by show 1 < 2; omega)
  have hr : r < 2 := hr
  have e : ([0, 0] : List ℕ).getD r 0 = 1 := e
  rcases r with _ | _ | r
  · cases e
  · cases e
  · omega

end CTInt
