import Verif.Proofs.SubFinal

/-!
# Recomputation, construction and the measured matrices
-/

set_option linter.all false

open Matrix

namespace CTInt

variable {K : Type} [RCLike K] [DecidableEq K]
variable {c : Ctx K} {s : Sub K}

instance : Nonempty (InvA K) := ⟨InvA.empty⟩

theorem loopSigns_spec {α : Type} {nf : ℕ} {f : ℕ → α → Res (α × K × K)} {x : ℕ → α} {g : ℕ → α} {p q : ℕ → K}
    (h : ∀ fl < nf, f fl (x fl) = .ok (g fl, p fl, q fl)) (a b : K) :
    Res.foldl (fun (y : (ℕ → α) × K × K) fl => do
      let (A, d, e) ← f fl (y.1 fl)
      pure (Function.update y.1 fl A, y.2.1 * mysign d, y.2.2 * mysign e)) (x, a, b) (List.range nf) =
    .ok (fun fl => if fl < nf then g fl else x fl, a * ∏ fl ∈ Finset.range nf, mysign (p fl),
      b * ∏ fl ∈ Finset.range nf, mysign (q fl)) := by
  induction nf with
  | zero => simp
  | succ n ih =>
    rw [List.range_succ, Res.foldl_append, ih fun fl hfl => h fl (by omega), Res.bind_ok]
    simp only [Res.foldl_cons, Res.foldl_nil, if_neg (lt_irrefl n)]
    rw [h n (by omega)]
    simp only [Res.bind_ok, Res.pure_eq, Finset.prod_range_succ, mul_assoc]
    congr 2
    funext fl
    by_cases e : fl = n
    · subst e; simp
    · rw [Function.update_of_ne e]
      by_cases h1 : fl < n
      · rw [if_pos h1, if_pos (by omega)]
      · rw [if_neg h1, if_neg (by omega)]

/-- det(G0 - α) of one flavor. -/
noncomputable def detGFl (c : Ctx K) (vs : List Vert) (fl : ℕ) : K :=
  detN (rowsOf c.NI c.tbl vs fl).length (rowG c.G0 (rowsOf c.NI c.tbl vs fl))

theorem flavorG_rows (G0 : Op → Op → K) {A : InvA K} {n : ℕ} (hA : A.Aligned n) {i j : ℕ} (hi : i < n) (hj : j < n) :
    flavorG G0 A.an A.cr A.al i j = rowG G0 A.rowList i j := by
  unfold flavorG rowG specG specG0
  simp only []
  rw [rowList_getD A (i := i) (by rw [hA.cr]; exact hi), rowList_getD A (i := j) (by rw [hA.cr]; exact hj)]
  rfl

theorem flavorA_det {A : InvA K} {vs : List Vert} {fl n : ℕ} (hA : A.Aligned n)
    (h : A.rowList.Perm (rowsOf c.NI c.tbl vs fl)) :
    detN n (flavorA c.NI c.G0 A.an A.cr A.al) = detFl c vs fl := by
  unfold detFl
  rw [← detA_perm c.NI c.G0 h, rowList_length, hA.cr]
  exact detN_congr fun i hi j hj => flavorA_rows c.NI c.G0 hA hi hj

theorem flavorG_det {A : InvA K} {vs : List Vert} {fl n : ℕ} (hA : A.Aligned n)
    (h : A.rowList.Perm (rowsOf c.NI c.tbl vs fl)) :
    detN n (flavorG c.G0 A.an A.cr A.al) = detGFl c vs fl := by
  unfold detGFl
  rw [← detG_perm c.G0 h, rowList_length, hA.cr]
  exact detN_congr fun i hi j hj => flavorG_rows c.G0 hA hi hj

theorem good_of_rows (ht : TblOK c.NI c.nf c.tbl) {A : InvA K} {vs : List Vert} {fl n : ℕ} (hA : A.Aligned n)
    (h : A.rowList.Perm (rowsOf c.NI c.tbl vs fl)) (hint : ∀ v ∈ vs, v.nonInt = false)
    (hok : ∀ v ∈ vs, VertOK c.tbl v) : ∀ j < n, GoodAlpha c.NI (A.al.getD j 0) := by
  intro j hj
  obtain ⟨v, hv, r, hr, _, e⟩ := al_of_rows h (i := j) (by rw [hA.cr]; exact hj)
  have e3 : A.al.getD j 0 = fieldOf c.NI c.tbl v r := congrArg OpRow.al e
  rw [e3]
  exact fieldOf_good ht (hok v hv) (hint v hv) hr

theorem recomputeFlavor_spec (ht : TblOK c.NI c.nf c.tbl) {A : InvA K} {vs : List Vert} {fl n : ℕ} (hA : A.Aligned n)
    (hm : n = 0 → A.mat.rows = 0 ∧ A.mat.cols = 0)
    (h : A.rowList.Perm (rowsOf c.NI c.tbl vs fl)) (hint : ∀ v ∈ vs, v.nonInt = false)
    (hok : ∀ v ∈ vs, VertOK c.tbl v) (hd : detGFl c vs fl ≠ 0) :
    ∃ A' p, A.recompute c.NI c.G0 = .ok (A', detFl c vs fl, p) ∧ A'.an = A.an ∧ A'.cr = A.cr ∧ A'.al = A.al ∧
      A'.vi = A.vi ∧ IsInvOf A'.mat n (flavorA c.NI c.G0 A.an A.cr A.al) ∧ p ≠ 0 ∧ detFl c vs fl / p = detGFl c vs fl := by
  by_cases hn : n = 0
  · obtain ⟨h1, h2⟩ := hm hn
    subst hn
    have e1 := flavorA_det (c := c) hA h
    have e2 := flavorG_det (c := c) hA h
    have d1 : detFl c vs fl = 1 := by rw [← e1]; unfold detN; exact Matrix.det_isEmpty
    have d2 : detGFl c vs fl = 1 := by rw [← e2]; unfold detN; exact Matrix.det_isEmpty
    unfold InvA.recompute
    simp only [hA.an, if_true]
    refine ⟨A, 1, by rw [d1]; rfl, rfl, rfl, rfl, rfl, ⟨h1, h2, ?_⟩, one_ne_zero, by rw [d1, d2, div_one]⟩
    ext i; exact i.elim0
  · have hg := good_of_rows ht hA h hint hok
    obtain ⟨A', d, p, q1, q2, q3, q4, q5, q6, q7, q8, q9⟩ := C05_recompute (G0 := c.G0) hA (by omega) hg
      (by rw [flavorG_det hA h]; exact hd)
    have e1 := flavorA_det (c := c) hA h
    have e2 := flavorG_det (c := c) hA h
    rw [e1] at q7
    subst q7
    exact ⟨A', p, q1, q2, q3, q4, q5, q6, q8, by rw [q9, e2]⟩

theorem detWeight_prod {vs : List Vert} (hint : ∀ v ∈ vs, v.nonInt = false) :
    detWeight c.NI c.nf c.G0 c.tbl vs = ∏ fl ∈ Finset.range c.nf, detGFl c vs fl := by
  unfold detWeight
  rw [interacting_self hint]
  rfl

/-- All flavors of a recomputation. -/
theorem recomputeAll_spec (ht : TblOK c.NI c.nf c.tbl) {I : ℕ → InvA K} {vs : List Vert}
    (hA : ∀ fl < c.nf, (I fl).Aligned (I fl).cr.length)
    (hm : ∀ fl < c.nf, (I fl).cr.length = 0 → (I fl).mat.rows = 0 ∧ (I fl).mat.cols = 0)
    (hr : ∀ fl < c.nf, (I fl).rowList.Perm (rowsOf c.NI c.tbl vs fl))
    (hint : ∀ v ∈ vs, v.nonInt = false) (hok : ∀ v ∈ vs, VertOK c.tbl v)
    (hw : weight c.NI c.nf c.G0 c.tbl vs ≠ 0) :
    ∃ I' sd sf, recomputeAll c I = .ok (I', sd, sf) ∧
      (∀ fl < c.nf, (I' fl).Aligned (I' fl).cr.length ∧
        IsInvOf (I' fl).mat (I' fl).cr.length (flavorA c.NI c.G0 (I' fl).an (I' fl).cr (I' fl).al) ∧
        (I' fl).rowList = (I fl).rowList) ∧
      sd = mysign (detAll c.NI c.nf c.G0 c.tbl vs) ∧ sd / sf = mysign (detWeight c.NI c.nf c.G0 c.tbl vs) := by
  have hd : ∀ fl < c.nf, detGFl c vs fl ≠ 0 := by
    intro fl hfl
    have : detWeight c.NI c.nf c.G0 c.tbl vs ≠ 0 := left_ne_zero_of_mul hw
    rw [detWeight_prod hint] at this
    exact Finset.prod_ne_zero_iff.mp this fl (Finset.mem_range.mpr hfl)
  have hF := fun fl (hfl : fl < c.nf) => recomputeFlavor_spec ht (hA fl hfl) (hm fl hfl) (hr fl hfl) hint hok (hd fl hfl)
  choose! g p g1 g2 g3 g4 g5 g6 g7 g8 using hF
  have hloop := loopSigns_spec (x := I) (f := fun fl A => A.recompute c.NI c.G0) g1 (1 : K) 1
  refine ⟨_, _, _, hloop, ?_, ?_, ?_⟩
  · intro fl hfl
    simp only [if_pos hfl]
    have hcr := g3 fl hfl
    refine ⟨?_, ?_, ?_⟩
    · rw [hcr]
      have := hA fl hfl
      exact ⟨by rw [hcr], by rw [g2 fl hfl]; exact this.an, by rw [g4 fl hfl]; exact this.al,
        by rw [g5 fl hfl]; exact this.vi⟩
    · rw [hcr, g2 fl hfl, g4 fl hfl]
      exact g6 fl hfl
    · unfold InvA.rowList InvA.rowAt
      rw [hcr, g2 fl hfl, g4 fl hfl, g5 fl hfl]
  · rw [one_mul, detAll_prod, mysign_prod]
  · rw [one_mul, one_mul, detWeight_prod hint, mysign_prod, ← Finset.prod_div_distrib]
    refine Finset.prod_congr rfl fun fl hfl => ?_
    rw [← mysign_div, g8 fl (Finset.mem_range.mp hfl)]

theorem foldl_mul_prod (l : List K) (a : K) : l.foldl (· * ·) a = a * l.prod := by
  induction l generalizing a with
  | nil => simp
  | cons b l ih => rw [List.foldl_cons, ih, List.prod_cons, mul_assoc]

theorem uSigns_spec {vs : List Vert} (hint : ∀ v ∈ vs, v.nonInt = false) (hok : ∀ v ∈ vs, VertOK c.tbl v) :
    ∃ us : List K, Res.mapM (fun v : Vert => do
      let d ← Res.get c.tbl v.type
      pure (mysign (-d.U))) vs = .ok us ∧ us.prod = mysign (uWeight c.tbl vs) := by
  refine ⟨vs.map fun v => mysign (- (termOf c.tbl v).U), Res.mapM_ok fun v hv => ?_, ?_⟩
  · have hlt : v.type < c.tbl.length := (hok v hv).1
    have : Res.get c.tbl v.type = .ok (termOf c.tbl v) := by
      rw [Res.get_of_lt hlt]; unfold termOf; rw [List.getD_eq_getElem _ _ hlt]
    rw [this]; rfl
  · unfold uWeight
    rw [interacting_self hint, mysign_listProd, List.map_map]
    rfl

/-- `recompute_matrix` between batches: allowed, changes neither the configuration nor the reported signs. -/
theorem recompute_spec (ht : TblOK c.NI c.nf c.tbl) (h : ReadyInv c s)
    (hw : weight c.NI c.nf c.G0 c.tbl s.verts ≠ 0) :
    ∃ s', Sub.recompute c s = .ok s' ∧ ReadyInv c s' ∧ s'.verts = s.verts ∧ s'.uid = s.uid ∧
      s'.sign = s.sign ∧ s'.signDetA = s.signDetA := by
  obtain ⟨I', sd, sf, e1, p1, p2, p3⟩ := recomputeAll_spec ht h.al
    (fun fl hfl h0 => ⟨by rw [(h.inv fl hfl).1, h0], by rw [(h.inv fl hfl).2.1, h0]⟩) h.rows h.int h.ok hw
  obtain ⟨us, e2, q⟩ := uSigns_spec h.int h.ok
  unfold Sub.recompute
  rw [Res.throwIf_false (by rw [h.idle]; simp), Res.bind_ok, e1]
  simp only [Res.bind_ok]
  rw [Res.assert_true h.int, Res.bind_ok, e2]
  simp only [Res.bind_ok, Res.pure_eq]
  have hs : us.foldl (· * ·) (sd / sf) = mysign (weight c.NI c.nf c.G0 c.tbl s.verts) := by
    rw [foldl_mul_prod, q, p3, ← mysign_mul]; rfl
  refine ⟨_, rfl, ?_, rfl, rfl, ?_, ?_⟩
  · exact {
      idle := h.idle
      int := h.int
      uids := h.uids
      uidle := h.uidle
      ok := h.ok
      al := fun fl hfl => (p1 fl hfl).1
      inv := fun fl hfl => (p1 fl hfl).2.1
      rows := fun fl hfl => by rw [(p1 fl hfl).2.2]; exact h.rows fl hfl
      gamr := h.gamr
      gamc := h.gamc
      gami := h.gami
      sgnA := p2
      sgn := hs }
  · exact hs.trans h.sgn.symm
  · exact p2.trans h.sgnA.symm

theorem ready_weight_ne_zero (ht : TblOK c.NI c.nf c.tbl) (h : ReadyInv c s) :
    weight c.NI c.nf c.G0 c.tbl s.verts ≠ 0 := by
  rw [weight_eq_detAll ht h.ok]
  refine mul_ne_zero (div_ne_zero ?_ (fAll_ne_zero ht h.ok)) (uWeight_ne_zero ht h.ok)
  rw [detAll_prod]
  refine Finset.prod_ne_zero_iff.mpr fun fl hfl => ?_
  have hfl := Finset.mem_range.mp hfl
  rw [← flavorA_det (h.al fl hfl) (h.rows fl hfl)]
  exact (h.inv fl hfl).det_ne_zero

theorem detN_zero (g : ℕ → ℕ → K) : detN 0 g = 1 := Matrix.det_isEmpty

/-- A freshly constructed object on no vertices. -/
theorem empty_ready : ReadyInv c (Sub.empty : Sub K) where
  idle := rfl
  int := by simp [Sub.empty]
  uids := by simp [Sub.empty]
  uidle := by simp [Sub.empty]
  ok := by simp [Sub.empty]
  al := fun _ _ => ⟨rfl, rfl, rfl, rfl⟩
  inv := fun _ _ => ⟨rfl, rfl, by ext i; exact i.elim0⟩
  rows := fun _ _ => List.Perm.refl _
  gamr := fun _ _ => rfl
  gamc := fun _ _ => rfl
  gami := fun _ _ => rfl
  sgnA := by
    rw [detAll_prod]
    have : ∀ fl, detFl c (Sub.empty : Sub K).verts fl = 1 := fun fl => detN_zero _
    simp only [this]
    simp [Sub.empty, mysign_one]
  sgn := by
    unfold weight detWeight
    have : ∀ fl, detN (rowsOf c.NI c.tbl (interacting (Sub.empty : Sub K).verts) fl).length
        (rowG c.G0 (rowsOf c.NI c.tbl (interacting (Sub.empty : Sub K).verts) fl)) = 1 :=
      fun fl => detN_zero _
    simp only [this]
    simp [Sub.empty, mysign_one, uWeight, interacting]

/-- Construction from a given configuration. -/
theorem create_spec (ht : TblOK c.NI c.nf c.tbl) {init : List Vert} (hint : ∀ v ∈ init, v.nonInt = false)
    (hok : ∀ v ∈ init, VertOK c.tbl v) (hw : weight c.NI c.nf c.G0 c.tbl (Sub.withIds init 0) ≠ 0) :
    ∃ s, Sub.create c init = .ok s ∧ ReadyInv c s ∧ s.verts = Sub.withIds init 0 ∧ s.uid = init.length := by
  unfold Sub.create
  by_cases h0 : init.length ≠ 0
  · rw [if_pos h0]
    set vs := Sub.withIds init 0 with hvs
    have hint' : ∀ v ∈ vs, v.nonInt = false := by
      intro v hv
      obtain ⟨w, hw, u, rfl⟩ := withIds_mem hv
      exact hint w hw
    have hok' : ∀ v ∈ vs, VertOK c.tbl v := by
      intro v hv
      obtain ⟨w, hw, u, rfl⟩ := withIds_mem hv
      exact hok w hw
    obtain ⟨nd, nle⟩ := withIds_nodup (vs := []) (ns := init) (k := 0) (by simp) (by simp)
    rw [List.nil_append, ← hvs] at nd nle
    have hE : (InvA.empty : InvA K).Aligned 0 := ⟨rfl, rfl, rfl, rfl⟩
    obtain ⟨I1, e1, p1⟩ := pushVertices_spec ht hok' (I := fun _ => (InvA.empty : InvA K)) (fun fl hfl => ⟨0, hE⟩)
    have hA1 : ∀ fl < c.nf, (I1 fl).Aligned (I1 fl).cr.length := by
      intro fl _
      have := (p1 fl).aligned hE
      rw [this.cr]; exact this
    have hr1 : ∀ fl < c.nf, (I1 fl).rowList.Perm (rowsOf c.NI c.tbl vs fl) := by
      intro fl _
      rw [(p1 fl).rowList hE]
      exact List.Perm.refl _
    obtain ⟨I', sd, sf, e3, p2, p3, p4⟩ := recomputeAll_spec ht hA1
      (fun fl hfl _ => by rw [(p1 fl).mat]; exact ⟨rfl, rfl⟩) hr1 hint' hok' hw
    obtain ⟨us, e2, q⟩ := uSigns_spec hint' hok'
    have hini : initAll c vs = .ok (I', sd, mysign (sd * us.prod / sf)) := by
      unfold initAll
      rw [Res.assert_true hint', Res.bind_ok, e1, Res.bind_ok, e2, Res.bind_ok, e3]
      rfl
    simp only []
    rw [hini]
    simp only [Res.bind_ok, Res.pure_eq]
    refine ⟨_, rfl, ?_, rfl, rfl⟩
    have := (empty_ready : ReadyInv c (Sub.empty : Sub K))
    exact {
      idle := rfl
      int := hint'
      uids := nd
      uidle := fun v hv => by simpa using nle v hv
      ok := hok'
      al := fun fl hfl => (p2 fl hfl).1
      inv := fun fl hfl => (p2 fl hfl).2.1
      rows := fun fl hfl => by rw [(p2 fl hfl).2.2]; exact hr1 fl hfl
      gamr := fun _ _ => rfl
      gamc := fun _ _ => rfl
      gami := fun _ _ => rfl
      sgnA := p3
      sgn := by
        show mysign (sd * us.prod / sf) = mysign _
        have : sd * us.prod / sf = mysign (weight c.NI c.nf c.G0 c.tbl vs) := by
          rw [q, mul_div_right_comm, p4, ← mysign_mul]; rfl
        rw [this, mysign_mysign] }
  · rw [if_neg h0]
    have h0 : init = [] := List.length_eq_zero_iff.mp (by omega)
    subst h0
    exact ⟨_, rfl, empty_ready, rfl, rfl⟩

/-- `compute_M` between batches. -/
theorem computeM_spec (ht : TblOK c.NI c.nf c.tbl) (h : ReadyInv c s) :
    ∃ M, Sub.computeM c s = .ok M ∧ ∀ fl < c.nf, IsInvOf (M fl) (s.invA fl).rowList.length
      (rowG c.G0 (s.invA fl).rowList) := by
  have hF : ∀ fl < c.nf, ∃ M, (s.invA fl).computeM c.NI = .ok M ∧
      IsInvOf M (s.invA fl).rowList.length (rowG c.G0 (s.invA fl).rowList) := by
    intro fl hfl
    obtain ⟨M, e, q⟩ := C05_compute_M (h.al fl hfl) (h.inv fl hfl)
      (good_of_rows ht (h.al fl hfl) (h.rows fl hfl) h.int h.ok)
    refine ⟨M, e, ?_⟩
    rw [rowList_length]
    exact q.congr' fun i hi j hj => (flavorG_rows c.G0 (h.al fl hfl) hi hj).symm
  obtain ⟨y, e, p, _⟩ := forFlavors_spec (nf := c.nf) (f := fun fl (_ : DMat K) => (s.invA fl).computeM c.NI)
    (x := fun _ => ⟨0, 0, fun _ _ => 0⟩) (P := fun fl M => IsInvOf M (s.invA fl).rowList.length
      (rowG c.G0 (s.invA fl).rowList)) hF
  exact ⟨y, e, p⟩

end CTInt
