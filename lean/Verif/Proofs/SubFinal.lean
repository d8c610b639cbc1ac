import Verif.Proofs.SubBatch

/-!
# End of a batch, recomputation and construction
-/

set_option linter.all false

open Matrix

namespace CTInt

variable {K : Type} [RCLike K] [DecidableEq K]
variable {c : Ctx K} {s : Sub K}

/-- Ids of the vertices that are non-interacting at the end of the batch. -/
def niUids (vs : List Vert) : List ℕ := (vs.filter fun v => v.nonInt).map Vert.uid

theorem mem_niUids {vs : List Vert} {u : ℕ} : u ∈ niUids vs ↔ ∃ v ∈ vs, v.nonInt = true ∧ v.uid = u := by
  unfold niUids
  simp [List.mem_map, List.mem_filter, and_assoc]

theorem uid_inj {vs : List Vert} (nd : (vs.map Vert.uid).Nodup) {v w : Vert} (hv : v ∈ vs) (hw : w ∈ vs)
    (h : v.uid = w.uid) : v = w := List.inj_on_of_nodup_map nd hv hw h

theorem niUids_nodup {vs : List Vert} (nd : (vs.map Vert.uid).Nodup) : (niUids vs).Nodup :=
  (List.filter_sublist.map Vert.uid).nodup nd

/-- Dropping the pairs of the non-interacting vertices. -/
theorem rowsOf_filter_uid (NI : K) (tbl : List (VDef K)) {vs : List Vert} (nd : (vs.map Vert.uid).Nodup) (fl : ℕ) :
    (rowsOf NI tbl vs fl).filter (fun r => decide (r.vi.uid ∉ niUids vs)) = rowsOf NI tbl (interacting vs) fl := by
  have key : ∀ ws : List Vert, (∀ w ∈ ws, w ∈ vs) →
      (rowsOf NI tbl ws fl).filter (fun r => decide (r.vi.uid ∉ niUids vs)) = rowsOf NI tbl (interacting ws) fl := by
    intro ws
    induction ws with
    | nil => intro _; rfl
    | cons w ws ih =>
      intro hw
      have e : ∀ w (l : List Vert), rowsOf NI tbl (w :: l) fl = rowsV NI tbl fl w ++ rowsOf NI tbl l fl :=
        fun _ _ => rfl
      rw [e, List.filter_append, ih fun x hx => hw x (by simp [hx])]
      have hww := hw w (by simp)
      have hr : ∀ r ∈ rowsV NI tbl fl w, r.vi.uid = w.uid := by
        intro r hr
        obtain ⟨k, _, _, rfl⟩ := mem_rowsV.mp hr
        rfl
      cases hn : w.nonInt with
      | true =>
        have e1 : interacting (w :: ws) = interacting ws := by simp [interacting, hn]
        have e2 : (rowsV NI tbl fl w).filter (fun r => decide (r.vi.uid ∉ niUids vs)) = [] := by
          rw [List.filter_eq_nil_iff]
          intro r hr'
          rw [hr r hr']
          have : w.uid ∈ niUids vs := mem_niUids.mpr ⟨w, hww, hn, rfl⟩
          simp [this]
        rw [e1, e2, List.nil_append]
      | false =>
        have e1 : interacting (w :: ws) = w :: interacting ws := by simp [interacting, hn]
        have e2 : (rowsV NI tbl fl w).filter (fun r => decide (r.vi.uid ∉ niUids vs)) = rowsV NI tbl fl w := by
          rw [List.filter_eq_self]
          intro r hr'
          rw [hr r hr']
          have : w.uid ∉ niUids vs := by
            intro hm
            obtain ⟨v, hv, hvn, e⟩ := mem_niUids.mp hm
            rw [uid_inj nd hv hww e, hn] at hvn
            cases hvn
          simp [this]
        rw [e1, e2, e]
  exact key vs fun w hw => hw

/-- A vertex has an operator pair on flavor `fl`. -/
def Touches (tbl : List (VDef K)) (v : Vert) (fl : ℕ) : Prop :=
  ∃ r < (termOf tbl v).rank, flavorOf tbl v r = fl

/-- The state of the flavor matrices after the updates have been folded in. -/
theorem folded_spec (ht : TblOK c.NI c.nf c.tbl) (h : TryInv c s) (j1 : ℕ → ℕ → ℕ → K) :
    ∃ I1, forFlavors c.nf (fun fl A => A.updateMatrix c.NI (j1 fl) (s.gam fl)) s.invA = .ok I1 ∧
      ∀ fl < c.nf, (I1 fl).Aligned (I1 fl).cr.length ∧
        IsInvOf (I1 fl).mat (I1 fl).cr.length (flavorA c.NI c.G0 (I1 fl).an (I1 fl).cr (I1 fl).al) ∧
        (I1 fl).rowList.Perm (rowsOf c.NI c.tbl s.verts fl) := by
  obtain ⟨I1, e1, p1, _⟩ := forFlavors_spec (nf := c.nf)
    (f := fun fl A => A.updateMatrix c.NI (j1 fl) (s.gam fl)) (x := s.invA)
    (P := fun fl A => A.Aligned A.cr.length ∧ IsInvOf A.mat A.cr.length (flavorA c.NI c.G0 A.an A.cr A.al) ∧
      A.rowList.Perm (rowsOf c.NI c.tbl s.verts fl))
    (fun fl hfl => by
      obtain ⟨A', q1, q2, q3, q4, q5, q6, q7⟩ := updateMatrix_spec (h.flav fl hfl) (j1 fl)
      have q2' := q2.cr
      refine ⟨A', q1, by rw [q2']; exact q2, by rw [q2']; exact q7, ?_⟩
      have e : A'.rowList = (s.invA fl).rowCur (c.cur (s.invA fl) s.verts) := by
        unfold InvA.rowList InvA.rowCur
        rw [q2']
        refine List.map_congr_left fun i hi => ?_
        unfold InvA.rowAt
        rw [q3, q4, q5, q6 i (List.mem_range.mp hi)]
      rw [e]
      exact rowCur_perm h.same h.uids (h.rows fl hfl))
  exact ⟨I1, e1, p1⟩

theorem rows_uid {A : InvA K} {vs : List Vert} {fl : ℕ} (h : A.rowList.Perm (rowsOf c.NI c.tbl vs fl))
    (nd : (vs.map Vert.uid).Nodup) {v : Vert} (hv : v ∈ vs) :
    (∃ i < A.cr.length, (A.vi.getD i default).uid = v.uid) ↔ Touches c.tbl v fl := by
  constructor
  · rintro ⟨i, hi, e⟩
    obtain ⟨w, hw, r, hr, hf, e2⟩ := al_of_rows h hi
    have e3 : (A.vi.getD i default).uid = w.uid := congrArg (fun x : OpRow K => x.vi.uid) e2
    rw [e3] at e
    have := uid_inj nd hw hv e
    subst this
    exact ⟨r, hr, hf⟩
  · rintro ⟨r, hr, hf⟩
    have hm : rowOf c.NI c.tbl v r ∈ rowsOf c.NI c.tbl vs fl := mem_rowsOf.mpr ⟨v, hv, r, hr, hf, rfl⟩
    rw [← h.mem_iff] at hm
    obtain ⟨i, hi, e⟩ := List.mem_map.mp hm
    exact ⟨i, List.mem_range.mp hi, congrArg (fun x : OpRow K => x.vi.uid) e⟩

/-- `finalize_update` when every vertex to be dropped has operators on every flavor. -/
theorem finalizeUpdate_spec (ht : TblOK c.NI c.nf c.tbl) (h : TryInv c s)
    (hT : ∀ v ∈ s.verts, v.nonInt = true → ∀ fl < c.nf, Touches c.tbl v fl) (j1 j2 j3 : ℕ → ℕ → ℕ → K) :
    ∃ s', Sub.finalizeUpdate c j1 j2 j3 s = .ok s' ∧ ReadyInv c s' ∧ s'.verts = interacting s.verts ∧
      s'.uid = s.uid := by
  obtain ⟨I1, e1, p1⟩ := folded_spec ht h j1
  have hmemI : ∀ v ∈ interacting s.verts, v ∈ s.verts ∧ v.nonInt = false := by
    intro v hv
    unfold interacting at hv
    rw [List.mem_filter] at hv
    exact ⟨hv.1, by simpa using hv.2⟩
  obtain ⟨I2, e2, p2, _⟩ := forFlavors_spec (nf := c.nf)
    (f := fun fl A => A.removeUids (j2 fl) (niUids s.verts)) (x := I1)
    (P := fun fl A => A.Aligned A.cr.length ∧ IsInvOf A.mat A.cr.length (flavorA c.NI c.G0 A.an A.cr A.al) ∧
      A.rowList.Perm (rowsOf c.NI c.tbl (interacting s.verts) fl))
    (fun fl hfl => by
      obtain ⟨q1, q2, q3⟩ := p1 fl hfl
      obtain ⟨A', N, r1, r2, r3, _, r5⟩ := removeUids_spec q1 q2 (niUids_nodup h.uids)
        (fun u hu => by
          obtain ⟨v, hv, hn, rfl⟩ := mem_niUids.mp hu
          exact (rows_uid q3 h.uids hv).mpr (hT v hv hn fl hfl))
        (fun i hi hu => by
          obtain ⟨v, hv, hn, e⟩ := mem_niUids.mp hu
          obtain ⟨w, hw, r, hr, hf, e2⟩ := al_of_rows q3 hi
          have e3 : ((I1 fl).vi.getD i default).uid = w.uid := congrArg (fun x : OpRow K => x.vi.uid) e2
          have e4 : (I1 fl).al.getD i 0 = fieldOf c.NI c.tbl w r := congrArg OpRow.al e2
          rw [e3] at e
          have := uid_inj h.uids hv hw e
          subst this
          rw [e4]
          exact fieldOf_NI hn r) (j2 fl)
      have hcr := r2.cr
      refine ⟨A', r1, by rw [hcr]; exact r2, by rw [hcr]; exact r3, ?_⟩
      refine r5.trans ?_
      rw [← rowsOf_filter_uid c.NI c.tbl h.uids fl]
      exact q3.filter _)
  obtain ⟨g, e3, p3, _⟩ := forFlavors_spec (nf := c.nf)
    (f := fun fl (G : Gamma K) => .ok (G.clear (j3 fl))) (x := s.gam)
    (P := fun fl G => G.mat.rows = 0 ∧ G.mat.cols = 0 ∧ G.info = [])
    (fun fl hfl => ⟨_, rfl, rfl, rfl, rfl⟩)
  unfold Sub.finalizeUpdate
  rw [Res.assert_true h.trying, Res.bind_ok, e1, Res.bind_ok]
  unfold niUids at e2
  simp only []
  rw [e2, Res.bind_ok, e3, Res.bind_ok, Res.throwIf_false, Res.bind_ok]
  · refine ⟨_, rfl, ?_, rfl, rfl⟩
    have hok : ∀ v ∈ interacting s.verts, VertOK c.tbl v := fun v hv => h.ok v (hmemI v hv).1
    have hint := interacting_idem s.verts
    exact {
      idle := rfl
      int := fun v hv => (hmemI v hv).2
      uids := (List.filter_sublist.map Vert.uid).nodup h.uids
      uidle := fun v hv => h.uidle v (hmemI v hv).1
      ok := hok
      al := fun fl hfl => (p2 fl hfl).1
      inv := fun fl hfl => (p2 fl hfl).2.1
      rows := fun fl hfl => (p2 fl hfl).2.2
      gamr := fun fl hfl => (p3 fl hfl).1
      gamc := fun fl hfl => (p3 fl hfl).2.1
      gami := fun fl hfl => (p3 fl hfl).2.2
      sgnA := by
        show s.signDetA = mysign _
        rw [h.sgnA]
        congr 1
        exact detAll_of_interacting ht h.ok hok hint.symm
      sgn := by
        show s.sign = mysign _
        rw [h.sgn]
        congr 1
        exact weight_of_interacting hint.symm }
  · rintro ⟨fl, hfl, hbad⟩
    have hfl := List.mem_range.mp hfl
    obtain ⟨q1, q2, q3⟩ := p2 fl hfl
    rcases hbad with e | ⟨i, hi, e⟩
    · exact e (by rw [q1.an])
    · have hi := List.mem_range.mp hi
      rw [q1.an] at hi
      obtain ⟨v, hv, r, hr, hf, e2⟩ := al_of_rows q3 hi
      have e4 : (I2 fl).al.getD i 0 = fieldOf c.NI c.tbl v r := congrArg OpRow.al e2
      rw [e] at e4
      have := hmemI v hv
      exact (fieldOf_good ht (h.ok v this.1) this.2 hr).1 e4.symm

/-! ### Failure of `finalize_update` -/

theorem mapM_throw {α β : Type} {f : α → Res β} {e : Exn} {l : List α} (h : ∀ a ∈ l, (∃ b, f a = .ok b) ∨ f a = .throw e)
    (hex : ∃ a ∈ l, f a = .throw e) : Res.mapM f l = .throw e := by
  induction l with
  | nil => obtain ⟨a, ha, _⟩ := hex; simp at ha
  | cons a l ih =>
    rw [Res.mapM_cons]
    rcases h a (by simp) with ⟨b, hb⟩ | hb
    · rw [hb, Res.bind_ok, ih (fun x hx => h x (by simp [hx]))]
      · rfl
      · obtain ⟨x, hx, e'⟩ := hex
        rcases List.mem_cons.mp hx with rfl | hx
        · rw [hb] at e'; cases e'
        · exact ⟨x, hx, e'⟩
    · rw [hb]; rfl

theorem forFlavors_throw {α : Type} {nf : ℕ} {f : ℕ → α → Res α} {x : ℕ → α} {e : Exn}
    (h : ∀ fl < nf, (∃ b, f fl (x fl) = .ok b) ∨ f fl (x fl) = .throw e) (hex : ∃ fl < nf, f fl (x fl) = .throw e) :
    forFlavors nf f x = .throw e := by
  have key : ∀ (l : List ℕ) (y : ℕ → α), l.Nodup → (∀ fl ∈ l, y fl = x fl) →
      (∀ fl ∈ l, (∃ b, f fl (x fl) = .ok b) ∨ f fl (x fl) = .throw e) → (∃ fl ∈ l, f fl (x fl) = .throw e) →
      Res.foldl (fun x fl => do
        let z ← f fl (x fl)
        pure (Function.update x fl z)) y l = .throw e := by
    intro l
    induction l with
    | nil => intro y _ _ _ hx; obtain ⟨a, ha, _⟩ := hx; simp at ha
    | cons a l ih =>
      intro y nd hy hh hx
      rw [Res.foldl_cons, hy a (by simp)]
      rw [List.nodup_cons] at nd
      rcases hh a (by simp) with ⟨b, hb⟩ | hb
      · rw [hb]
        simp only [Res.bind_ok, Res.pure_eq]
        refine ih _ nd.2 (fun fl hfl => ?_) (fun fl hfl => hh fl (by simp [hfl])) ?_
        · rw [Function.update_of_ne (by rintro rfl; exact nd.1 hfl), hy fl (by simp [hfl])]
        · obtain ⟨z, hz, e'⟩ := hx
          rcases List.mem_cons.mp hz with rfl | hz
          · rw [hb] at e'; cases e'
          · exact ⟨z, hz, e'⟩
      · rw [hb]; rfl
  refine key _ x List.nodup_range (fun _ _ => rfl) (fun fl hfl => h fl (List.mem_range.mp hfl)) ?_
  obtain ⟨fl, hfl, e'⟩ := hex
  exact ⟨fl, List.mem_range.mpr hfl, e'⟩

/-- `finalize_update` fails as soon as one vertex to be dropped has no operator on some flavor. -/
theorem finalizeUpdate_throws (ht : TblOK c.NI c.nf c.tbl) (h : TryInv c s)
    (hT : ∃ v ∈ s.verts, v.nonInt = true ∧ ∃ fl < c.nf, ¬ Touches c.tbl v fl) (j1 j2 j3 : ℕ → ℕ → ℕ → K) :
    Sub.finalizeUpdate c j1 j2 j3 s = .throw .logicError := by
  obtain ⟨I1, e1, p1⟩ := folded_spec ht h j1
  have hall : ∀ fl < c.nf, (∃ b, (I1 fl).removeUids (j2 fl) (niUids s.verts) = .ok b) ∨
      (I1 fl).removeUids (j2 fl) (niUids s.verts) = .throw .logicError := by
    intro fl hfl
    obtain ⟨q1, q2, q3⟩ := p1 fl hfl
    by_cases ht' : ∀ v ∈ s.verts, v.nonInt = true → Touches c.tbl v fl
    · left
      obtain ⟨A', N, r1, _⟩ := removeUids_spec q1 q2 (niUids_nodup h.uids)
        (fun u hu => by
          obtain ⟨v, hv, hn, rfl⟩ := mem_niUids.mp hu
          exact (rows_uid q3 h.uids hv).mpr (ht' v hv hn))
        (fun i hi hu => by
          obtain ⟨v, hv, hn, e⟩ := mem_niUids.mp hu
          obtain ⟨w, hw, r, hr, hf, e2⟩ := al_of_rows q3 hi
          have e3 : ((I1 fl).vi.getD i default).uid = w.uid := congrArg (fun x : OpRow K => x.vi.uid) e2
          have e4 : (I1 fl).al.getD i 0 = fieldOf c.NI c.tbl w r := congrArg OpRow.al e2
          rw [e3] at e
          have := uid_inj h.uids hv hw e
          subst this
          rw [e4]
          exact fieldOf_NI hn r) (j2 fl)
      exact ⟨A', r1⟩
    · right
      push Not at ht'
      obtain ⟨v, hv, hn, hno⟩ := ht'
      have hthrow : Res.mapM (I1 fl).findRowCols (niUids s.verts) = .throw .logicError := by
        refine mapM_throw (fun u _ => ?_) ⟨v.uid, mem_niUids.mpr ⟨v, hv, hn, rfl⟩, ?_⟩
        · unfold InvA.findRowCols
          simp only []
          split
          · exact Or.inr rfl
          · exact Or.inl ⟨_, rfl⟩
        · refine findRowCols_throw fun i hi e => hno ?_
          exact (rows_uid q3 h.uids hv).mp ⟨i, hi, e⟩
      unfold InvA.removeUids
      rw [hthrow]; rfl
  have hthrow : forFlavors c.nf (fun fl A => A.removeUids (j2 fl) (niUids s.verts)) I1 = .throw .logicError := by
    refine forFlavors_throw hall ?_
    obtain ⟨v, hv, hn, fl, hfl, hno⟩ := hT
    refine ⟨fl, hfl, ?_⟩
    obtain ⟨q1, q2, q3⟩ := p1 fl hfl
    have hthrow : Res.mapM (I1 fl).findRowCols (niUids s.verts) = .throw .logicError := by
      refine mapM_throw (fun u _ => ?_) ⟨v.uid, mem_niUids.mpr ⟨v, hv, hn, rfl⟩, ?_⟩
      · unfold InvA.findRowCols
        simp only []
        split
        · exact Or.inr rfl
        · exact Or.inl ⟨_, rfl⟩
      · refine findRowCols_throw fun i hi e => hno ?_
        exact (rows_uid q3 h.uids hv).mp ⟨i, hi, e⟩
    unfold InvA.removeUids
    rw [hthrow]; rfl
  unfold Sub.finalizeUpdate
  rw [Res.assert_true h.trying, Res.bind_ok, e1, Res.bind_ok]
  unfold niUids at hthrow
  simp only []
  rw [hthrow]
  rfl

end CTInt
