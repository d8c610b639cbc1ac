import Verif.Proofs.SubRun
import Verif.Model.Debug
import Verif.Spec.Debug

/-!
# The checks of the debug build
-/

set_option linter.all false

open Matrix

namespace CTInt

variable {K : Type} [RCLike K] [DecidableEq K]
variable {c : Ctx K} {s : Sub K}

theorem assert_bind {α : Type} {p : Prop} {inst : Decidable p} (h : p) (f : Unit → Res α) :
    (@Res.assert p inst >>= f) = f () := by rw [Res.assert_true h]; rfl

theorem assert_ok {p : Prop} {inst : Decidable p} (h : p) : @Res.assert p inst = .ok () := Res.assert_true h

theorem assert_iff {p : Prop} {inst : Decidable p} {u : Unit} : @Res.assert p inst = .ok u ↔ p := Res.assert_eq_ok

theorem myEqual_self {x : K} (h : x ≠ 0) {eps : ℝ} (he : 0 < eps) : myEqual x x eps = true := by
  unfold myEqual
  simp [h, he]

theorem alphaAt_ok {A : InvA K} {n : ℕ} (hA : A.Aligned n) {i : ℕ} (hi : i < n) :
    A.alphaAt i = .ok (A.al.getD i 0) := by
  unfold InvA.alphaAt
  have h1 : i < A.al.length := by rw [hA.al]; exact hi
  rw [Res.assert_true (by rw [hA.cr]; exact hi), Res.bind_ok, Res.get_of_lt h1, List.getD_eq_getElem _ _ h1]

open Classical in
/-- What the check makes of another matrix in the place of the stored inverse of Gamma. -/
theorem gammaCheck_with {NI : K} {G0 : Op → Op → K} {A : InvA K} {G : Gamma K} {n : ℕ} {cur : ℕ → K}
    (h : FlavInv NI G0 A G n cur) {X : DMat K} (hX : X.rows = G.mat.rows ∧ X.cols = G.mat.cols) :
    Gamma.sanityCheck NI A { G with mat := X } =
      if G.mat.rows = 0 ∨ (∑ i ∈ Finset.range G.mat.rows, ∑ j ∈ Finset.range G.mat.rows, ‖X.val i j - G.mat.val i j‖ ^ 2) /
        ((G.mat.rows : ℝ) ^ 2) < 1E-5 then .ok true else .ub := by
  unfold Gamma.sanityCheck
  simp only []
  rw [h.inv.1]
  by_cases h0 : G.info.length = 0
  · simp [h0]
  simp only [h0, if_false, false_or]
  have hm : ∀ j < G.info.length, G.info.getD j default ∈ G.info := fun j hj => getD_mem hj default
  have ha : ∀ j < G.info.length, A.alphaAt (G.info.getD j default).pos = .ok (G.info.getD j default).a0 := fun j hj => by
    rw [alphaAt_ok h.setup.aligned (h.info.lt _ (hm j hj)), h.info.a0 _ (hm j hj)]
  have hb : ∀ j < G.info.length, (G.info.getD j default).pos < A.tG.rows ∧ (G.info.getD j default).pos < A.tG.cols :=
    fun j hj => by
      rw [h.setup.tGr, h.setup.tGc]; exact ⟨h.info.lt _ (hm j hj), h.info.lt _ (hm j hj)⟩
  rw [assert_bind ha, assert_bind hb]
  have hg : toM G.info.length G.info.length (fun i j =>
      A.tG.val (G.info.getD i default).pos (G.info.getD j default).pos -
        if i = j then (1 + Gamma.gam NI (G.info.getD j default)) / Gamma.gam NI (G.info.getD j default) else 0) =
      toM G.info.length G.info.length (gamI NI A.tG.val G.info) := by
    refine toM_congr fun i hi j hj => ?_
    rw [← evalGammaij_eq h.setup h.info h.ok hi]
    unfold Gamma.evalGammaij
    by_cases e : i = j
    · subst e; simp
    · simp [e]
  obtain ⟨r1, r2, r3⟩ := h.inv
  have hdet : (toM G.info.length G.info.length (gamI NI A.tG.val G.info)).det ≠ 0 := by
    intro e
    have := congrArg Matrix.det r3
    rw [det_mul, e, mul_zero, det_one] at this
    exact zero_ne_one this
  have hinv : (toM G.info.length G.info.length (gamI NI A.tG.val G.info))⁻¹ =
      toM G.info.length G.info.length G.mat.val := Matrix.inv_eq_left_inv r3
  have hd : DMat.det (⟨G.info.length, G.info.length, fun i j =>
      A.tG.val (G.info.getD i default).pos (G.info.getD j default).pos -
        if i = j then (1 + Gamma.gam NI (G.info.getD j default)) / Gamma.gam NI (G.info.getD j default) else 0⟩ : DMat K)
      ≠ 0 := by unfold DMat.det; rw [hg]; exact hdet
  rw [assert_bind hd, assert_bind ⟨hX.1.trans r1, hX.2.trans r2⟩]
  have hn : normSquare (DMat.sub (DMat.inv (⟨G.info.length, G.info.length, fun i j =>
      A.tG.val (G.info.getD i default).pos (G.info.getD j default).pos -
        if i = j then (1 + Gamma.gam NI (G.info.getD j default)) / Gamma.gam NI (G.info.getD j default) else 0⟩ : DMat K))
        X) = ∑ i ∈ Finset.range G.info.length, ∑ j ∈ Finset.range G.info.length, ‖X.val i j - G.mat.val i j‖ ^ 2 := by
    unfold normSquare
    refine Finset.sum_congr rfl fun i hi => Finset.sum_congr rfl fun j hj => ?_
    have hi : i < G.info.length := Finset.mem_range.mp hi
    have hj : j < G.info.length := Finset.mem_range.mp hj
    have : ofM (toM G.info.length G.info.length (fun i j =>
      A.tG.val (G.info.getD i default).pos (G.info.getD j default).pos -
        if i = j then (1 + Gamma.gam NI (G.info.getD j default)) / Gamma.gam NI (G.info.getD j default) else 0))⁻¹ i j =
        G.mat.val i j := by
      rw [hg, hinv]
      simp [ofM, hi, hj]
    show ‖_ - X.val i j‖ ^ 2 = _
    rw [show (DMat.inv (⟨G.info.length, G.info.length, fun i j =>
      A.tG.val (G.info.getD i default).pos (G.info.getD j default).pos -
        if i = j then (1 + Gamma.gam NI (G.info.getD j default)) / Gamma.gam NI (G.info.getD j default) else 0⟩ : DMat K)).val
          i j = G.mat.val i j from this, norm_sub_rev]
  rw [hn, ← pow_two]
  split
  · rename_i hl
    rw [assert_bind hl, decide_eq_true hl]; rfl
  · rename_i hl
    rw [Res.assert_false hl]; rfl

/-- The stored inverse of Gamma is what the check computes. -/
theorem gammaCheck_ok {NI : K} {G0 : Op → Op → K} {A : InvA K} {G : Gamma K} {n : ℕ} {cur : ℕ → K}
    (h : FlavInv NI G0 A G n cur) : G.sanityCheck NI A = .ok true := by
  have := gammaCheck_with h (X := G.mat) ⟨rfl, rfl⟩
  rw [if_pos (Or.inr (by simp; norm_num))] at this
  exact this

theorem invACheck_ok {A : InvA K} (hA : A.Aligned A.cr.length) (hr : A.mat.rows = A.cr.length)
    (hc : A.mat.cols = A.cr.length) : A.sanityCheck = .ok true := by
  unfold InvA.sanityCheck
  rw [Res.assert_true (by rw [hr, hc]), Res.bind_ok, Res.assert_true hr, Res.bind_ok, Res.assert_true hA.an.symm,
    Res.bind_ok, Res.assert_true hA.al.symm, Res.bind_ok, Res.assert_true hA.vi.symm, Res.bind_ok]
  simp [hr, hc, hA.an, hA.al, hA.vi]

theorem foldl_const_true {f : ℕ → Res Bool} {nf : ℕ} (h : ∀ fl < nf, f fl = .ok true) :
    Res.foldl (fun b fl => if b then f fl else pure false) true (List.range nf) = .ok true := by
  induction nf with
  | zero => rfl
  | succ n ih =>
    rw [List.range_succ, Res.foldl_append, ih fun fl hfl => h fl (by omega), Res.bind_ok, Res.foldl_cons]
    simp [h n (by omega)]

theorem checkGamma_try (h : TryInv c s) : s.checkGamma c = .ok true :=
  foldl_const_true fun fl hfl => gammaCheck_ok (h.flav fl hfl)

theorem checkGamma_idle (h : ∀ fl < c.nf, (s.gam fl).info = []) : s.checkGamma c = .ok true :=
  foldl_const_true fun fl hfl => by unfold Gamma.sanityCheck; simp [h fl hfl]

theorem sanity_try (h : TryInv c s) : s.sanityCheck c = .ok (s, true) := by
  unfold Sub.sanityCheck
  rw [checkGamma_try h, Res.bind_ok]
  simp [h.trying]

/-! ### The scratch lists -/

theorem scratchRank_spec (ht : TblOK c.NI c.nf c.tbl) {v : Vert} (hv : VertOK c.tbl v) (hi : v.nonInt = false) {r : ℕ}
    (hr : r < (termOf c.tbl v).rank) (S : ℕ → List (OpRow K)) :
    scratchRank c (termOf c.tbl v) v S r =
      .ok (fun fl => S fl ++ if flavorOf c.tbl v r = fl then [rowOf c.NI c.tbl v r] else []) := by
  have hm := termOf_mem hv.1
  have hfl : r < (termOf c.tbl v).flavors.length := by rw [ht.fl _ hm]; exact hr
  have hs1 : 2 * r < (termOf c.tbl v).sites.length := by rw [ht.si _ hm]; omega
  have hs2 : 2 * r + 1 < (termOf c.tbl v).sites.length := by rw [ht.si _ hm]; omega
  have ef : Res.get (termOf c.tbl v).flavors r = .ok (flavorOf c.tbl v r) := by
    rw [Res.get_of_lt hfl]; unfold flavorOf; rw [List.getD_eq_getElem _ _ hfl]
  have e1 : Res.get (termOf c.tbl v).sites (2 * r) = .ok ((termOf c.tbl v).sites.getD (2 * r) 0) := by
    rw [Res.get_of_lt hs1, List.getD_eq_getElem _ _ hs1]
  have e2 : Res.get (termOf c.tbl v).sites (2 * r + 1) = .ok ((termOf c.tbl v).sites.getD (2 * r + 1) 0) := by
    rw [Res.get_of_lt hs2, List.getD_eq_getElem _ _ hs2]
  have hlt := flavorOf_lt ht hv.1 hr
  have ea := alphaOf_eq (NI := c.NI) hv hr
  unfold alphaOf at ea
  rw [hi] at ea
  simp only [Bool.false_eq_true, if_false] at ea
  unfold scratchRank
  rw [ef, Res.bind_ok, Res.assert_true hlt, Res.bind_ok, e1, Res.bind_ok, e2, Res.bind_ok, ea, Res.bind_ok]
  simp only [Res.pure_eq, Res.ok.injEq]
  funext fl
  by_cases h : flavorOf c.tbl v r = fl
  · subst h
    rw [Function.update_self, if_pos rfl]
    rfl
  · rw [Function.update_of_ne (fun e => h e.symm), if_neg h, List.append_nil]

theorem scratchRanks_spec (ht : TblOK c.NI c.nf c.tbl) {v : Vert} (hv : VertOK c.tbl v) (hi : v.nonInt = false)
    (l : List ℕ) (hl : ∀ r ∈ l, r < (termOf c.tbl v).rank) (S : ℕ → List (OpRow K)) :
    Res.foldl (scratchRank c (termOf c.tbl v) v) S l =
      .ok (fun fl => S fl ++ (l.filter fun r => decide (flavorOf c.tbl v r = fl)).map (rowOf c.NI c.tbl v)) := by
  induction l generalizing S with
  | nil => simp
  | cons r l ih =>
    rw [Res.foldl_cons, scratchRank_spec ht hv hi (hl r (by simp)), Res.bind_ok, ih fun q hq => hl q (by simp [hq])]
    congr 1
    funext fl
    rw [List.filter_cons, List.append_assoc]
    by_cases h : flavorOf c.tbl v r = fl <;> simp [h]

/-- The scratch lists are the operator pairs of the configuration. -/
theorem scratch_spec (ht : TblOK c.NI c.nf c.tbl) {vs : List Vert} (hv : ∀ v ∈ vs, VertOK c.tbl v)
    (hi : ∀ v ∈ vs, v.nonInt = false) (hr : RanksOK c.tbl vs) (S : ℕ → List (OpRow K)) :
    Res.foldl (scratchVertex c) S vs = .ok (fun fl => S fl ++ rowsOf c.NI c.tbl vs fl) := by
  induction vs generalizing S with
  | nil => simp [rowsOf]
  | cons v vs ih =>
    have hv0 := hv v (by simp)
    have et : Res.get c.tbl v.type = .ok (termOf c.tbl v) := by
      have hlt : v.type < c.tbl.length := hv0.1
      rw [Res.get_of_lt hlt]; unfold termOf; rw [List.getD_eq_getElem _ _ hlt]
    have : scratchVertex c S v = .ok (fun fl => S fl ++ rowsV c.NI c.tbl fl v) := by
      unfold scratchVertex
      rw [et, Res.bind_ok, hr v (by simp), Int.toNat_natCast,
        scratchRanks_spec ht hv0 (hi v (by simp)) _ (fun r hr => List.mem_range.mp hr)]
      rfl
    rw [Res.foldl_cons, this, Res.bind_ok, ih (fun w hw => hv w (by simp [hw])) (fun w hw => hi w (by simp [hw]))
      (fun w hw => hr w (by simp [hw]))]
    congr 1
    funext fl
    rw [List.append_assoc]
    rfl

/-! ### Comparing -/

theorem getElem?_getD {α : Type} {l : List α} {i : ℕ} (h : i < l.length) (d : α) : l[i]? = some (l.getD i d) := by
  rw [List.getElem?_eq_getElem h, List.getD_eq_getElem _ _ h]

theorem checkOp_ok {A : InvA K} {n : ℕ} (hA : A.Aligned n) (nd : (A.rowList.map rowKey).Nodup) {o : OpRow K}
    (h : o ∈ A.rowList) : checkOp A o = .ok () := by
  obtain ⟨i, hi, e⟩ := List.mem_map.mp h
  have hi := List.mem_range.mp hi
  have hin : i < n := by rw [← hA.cr]; exact hi
  have hf : A.findRowCol o.vi.uid o.vi.rank = some i := findRowCol_spec nd hi (by rw [e]; rfl)
  unfold checkOp
  rw [hf]
  have h1 : A.cr[i]? = some o.cr := by rw [getElem?_getD hi default, ← e]; rfl
  have h2 : A.an[i]? = some o.an := by rw [getElem?_getD (by rw [hA.an]; exact hin) default, ← e]; rfl
  have h3 : A.alphaAt i = .ok o.al := by rw [alphaAt_ok hA hin, ← e]; rfl
  simp only []
  rw [assert_bind h1, assert_bind h2, assert_ok h3]

theorem foldl_unit {α : Type} {f : α → Res Unit} {l : List α} (h : ∀ a ∈ l, f a = .ok ()) :
    Res.foldl (fun _ a => f a) () l = .ok () := by
  induction l with
  | nil => rfl
  | cons a l ih => rw [Res.foldl_cons, h a (by simp), Res.bind_ok, ih fun b hb => h b (by simp [hb])]

theorem foldl_unit_inv {α : Type} {f : α → Res Unit} {l : List α} {u : Unit}
    (h : Res.foldl (fun _ a => f a) () l = .ok u) : ∀ a ∈ l, f a = .ok () := by
  induction l with
  | nil => simp
  | cons a l ih =>
    rw [Res.foldl_cons, Res.bind_eq_ok] at h
    obtain ⟨x, h1, h2⟩ := h
    intro b hb
    rcases List.mem_cons.mp hb with rfl | hb
    · exact h1
    · exact ih h2 b hb

/-- An object between batches whose operator lists are those of its configuration; nothing is said on the entries of
    A⁻¹ and on the signs. -/
structure Listed (c : Ctx K) (s : Sub K) : Prop where
  idle : s.trying = false
  int : ∀ v ∈ s.verts, v.nonInt = false
  uids : (s.verts.map Vert.uid).Nodup
  uidle : ∀ v ∈ s.verts, v.uid ≤ s.uid
  ok : ∀ v ∈ s.verts, VertOK c.tbl v
  al : ∀ fl < c.nf, (s.invA fl).Aligned (s.invA fl).cr.length
  matr : ∀ fl < c.nf, (s.invA fl).mat.rows = (s.invA fl).cr.length
  matc : ∀ fl < c.nf, (s.invA fl).mat.cols = (s.invA fl).cr.length
  rows : ∀ fl < c.nf, (s.invA fl).rowList.Perm (rowsOf c.NI c.tbl s.verts fl)
  gamr : ∀ fl < c.nf, (s.gam fl).mat.rows = 0
  gamc : ∀ fl < c.nf, (s.gam fl).mat.cols = 0
  gami : ∀ fl < c.nf, (s.gam fl).info = []

theorem ReadyInv.listed (h : ReadyInv c s) : Listed c s :=
  ⟨h.idle, h.int, h.uids, h.uidle, h.ok, h.al, fun fl hfl => (h.inv fl hfl).1, fun fl hfl => (h.inv fl hfl).2.1, h.rows,
    h.gamr, h.gamc, h.gami⟩

/-- `recompute_matrix` repairs everything but the lists. -/
theorem recompute_listed (ht : TblOK c.NI c.nf c.tbl) (h : Listed c s)
    (hw : weight c.NI c.nf c.G0 c.tbl s.verts ≠ 0) :
    ∃ s', Sub.recompute c s = .ok s' ∧ ReadyInv c s' ∧ s'.verts = s.verts ∧ s'.uid = s.uid := by
  obtain ⟨I', sd, sf, e1, p1, p2, p3⟩ := recomputeAll_spec ht h.al
    (fun fl hfl h0 => ⟨by rw [h.matr fl hfl, h0], by rw [h.matc fl hfl, h0]⟩) h.rows h.int h.ok hw
  obtain ⟨us, e2, q⟩ := uSigns_spec h.int h.ok
  unfold Sub.recompute
  rw [Res.throwIf_false (by rw [h.idle]; simp), Res.bind_ok, e1]
  simp only [Res.bind_ok]
  rw [Res.assert_true h.int, Res.bind_ok, e2]
  simp only [Res.bind_ok, Res.pure_eq]
  have hs : us.foldl (· * ·) (sd / sf) = mysign (weight c.NI c.nf c.G0 c.tbl s.verts) := by
    rw [foldl_mul_prod, q, p3, ← mysign_mul]; rfl
  refine ⟨_, rfl, ?_, rfl, rfl⟩
  exact {
    idle := h.idle
    int := h.int
    uids := h.uids
    uidle := h.uidle
    ok := h.ok
    al := fun fl hfl => (p1 fl hfl).1
    inv := fun fl hfl => (p1 fl hfl).2.1
    rows := fun fl hfl => by rw [(p1 fl hfl).2.2]; exact h.rows fl hfl
    gamr := h.gamr
    gamc := h.gamc
    gami := h.gami
    sgnA := p2
    sgn := hs }

theorem detAll_ne_of_weight (ht : TblOK c.NI c.nf c.tbl) {vs : List Vert} (hv : ∀ v ∈ vs, VertOK c.tbl v) :
    detAll c.NI c.nf c.G0 c.tbl vs ≠ 0 ↔ weight c.NI c.nf c.G0 c.tbl vs ≠ 0 := by
  rw [weight_eq_detAll ht hv]
  have h1 := fAll_ne_zero ht hv
  have h2 := uWeight_ne_zero ht hv
  simp [h1, h2]

theorem sanityFlavors_ok (ht : TblOK c.NI c.nf c.tbl) (h : Listed c s) (hr : RanksOK c.tbl s.verts) :
    sanityFlavors c s.verts s.invA = .ok true := by
  unfold sanityFlavors
  rw [scratch_spec ht h.ok h.int hr, Res.bind_ok]
  simp only [List.nil_append]
  have step : ∀ fl < c.nf, checkFlavor s.invA (fun fl => rowsOf c.NI c.tbl s.verts fl) true fl = .ok true := by
    intro fl hfl
    have hA := h.al fl hfl
    have hp := h.rows fl hfl
    have hl := hp.length_eq
    rw [rowList_length] at hl
    unfold checkFlavor
    simp only [if_true]
    rw [invACheck_ok hA (h.matr fl hfl) (h.matc fl hfl), Res.bind_ok, Res.assert_true (by rw [hA.an, hl]), Res.bind_ok,
      Res.assert_true hl, Res.bind_ok, foldl_unit fun o ho => ?_]
    · rfl
    · refine checkOp_ok hA ?_ (hp.mem_iff.mpr ho)
      exact ((hp.map rowKey).nodup_iff).mpr (rowsOf_key_nodup h.uids fl)
  have gen : ∀ n ≤ c.nf, Res.foldl (checkFlavor s.invA (fun fl => rowsOf c.NI c.tbl s.verts fl)) true (List.range n) =
      .ok true := by
    intro n hn
    induction n with
    | zero => rfl
    | succ n ih => rw [List.range_succ, Res.foldl_append, ih (by omega), Res.bind_ok, Res.foldl_cons, step n (by omega)]; rfl
  exact gen _ le_rfl

/-- Between batches the check passes whatever the entries of A⁻¹ are, and leaves an object with the same meaning. -/
theorem sanity_listed (ht : TblOK c.NI c.nf c.tbl) (h : Listed c s) (hr : RanksOK c.tbl s.verts)
    (hw : weight c.NI c.nf c.G0 c.tbl s.verts ≠ 0)
    (hs : myEqual s.sign (mysign (weight c.NI c.nf c.G0 c.tbl s.verts)) 1E-5 = true)
    (hd : myEqual s.signDetA (mysign (detAll c.NI c.nf c.G0 c.tbl s.verts)) 1E-5 = true) :
    ∃ s', s.sanityCheck c = .ok (s', true) ∧ s.recompute c = .ok s' ∧ ReadyInv c s' ∧ s'.verts = s.verts ∧
      s'.uid = s.uid := by
  obtain ⟨s', e, q1, q2, q3⟩ := recompute_listed ht h hw
  refine ⟨s', ?_, e, q1, q2, q3⟩
  unfold Sub.sanityCheck
  rw [checkGamma_idle h.gami, Res.bind_ok]
  simp only [h.idle, if_true]
  rw [sanityFlavors_ok ht h hr, Res.bind_ok, e, Res.bind_ok, q1.sgn, q1.sgnA, q2,
    Res.assert_true hs, Res.bind_ok, Res.assert_true hd, Res.bind_ok]
  rfl

theorem sanity_ready (ht : TblOK c.NI c.nf c.tbl) (h : ReadyInv c s) (hr : RanksOK c.tbl s.verts) :
    ∃ s', s.sanityCheck c = .ok (s', true) ∧ s.recompute c = .ok s' ∧ ReadyInv c s' ∧ s'.verts = s.verts ∧
      s'.uid = s.uid := by
  have hw := ready_weight_ne_zero ht h
  refine sanity_listed ht h.listed hr hw ?_ ?_
  · rw [h.sgn]; exact myEqual_self (mysign_ne_zero hw) (by norm_num)
  · rw [h.sgnA]; exact myEqual_self (mysign_ne_zero ((detAll_ne_of_weight ht h.ok).mpr hw)) (by norm_num)

/-! ### What a passed check tells -/

theorem checkOp_inv {A : InvA K} {o : OpRow K} {u : Unit} (h : checkOp A o = .ok u) :
    ∃ p < A.cr.length, A.cr.getD p default = o.cr ∧ A.an.getD p default = o.an ∧ A.al.getD p 0 = o.al ∧
      (A.vi.getD p default).uid = o.vi.uid ∧ (A.vi.getD p default).rank = o.vi.rank := by
  unfold checkOp at h
  cases hf : A.findRowCol o.vi.uid o.vi.rank with
  | none => rw [hf] at h; cases h
  | some p =>
    rw [hf] at h
    simp only [] at h
    rw [Res.bind_eq_ok] at h
    obtain ⟨_, h1, h⟩ := h
    rw [Res.bind_eq_ok] at h
    obtain ⟨_, h2, h3⟩ := h
    rw [assert_iff] at h1 h2 h3
    unfold InvA.findRowCol at hf
    have hp := List.mem_range.mp (List.mem_of_find?_eq_some hf)
    have hk := List.find?_some hf
    simp only [decide_eq_true_eq] at hk
    unfold InvA.alphaAt at h3
    rw [Res.bind_eq_ok] at h3
    obtain ⟨_, _, h3⟩ := h3
    rw [Res.get_eq_ok] at h3
    refine ⟨p, hp, ?_, ?_, ?_, hk.1, hk.2⟩
    · rw [List.getD_eq_getElem?_getD, h1]; rfl
    · rw [List.getD_eq_getElem?_getD, h2]; rfl
    · rw [List.getD_eq_getElem?_getD, h3]; rfl

theorem checkFlavor_inv {I : ℕ → InvA K} {S : ℕ → List (OpRow K)} {b : Bool} {fl : ℕ}
    (h : checkFlavor I S b fl = .ok true) :
    b = true ∧ (I fl).Aligned (I fl).cr.length ∧ (I fl).mat.rows = (I fl).cr.length ∧
      (I fl).mat.cols = (I fl).cr.length ∧ (I fl).cr.length = (S fl).length ∧ ∀ o ∈ S fl, checkOp (I fl) o = .ok () := by
  unfold checkFlavor at h
  cases b with
  | false =>
    simp only [Bool.false_eq_true, if_false, Res.pure_eq, Res.bind_ok] at h
    simp only [Res.bind_eq_ok] at h
    obtain ⟨_, _, _, _, _, _, h⟩ := h
    cases h
  | true =>
    simp only [if_true, Res.bind_eq_ok] at h
    obtain ⟨r, h0, _, h1, _, h2, _, h3, _⟩ := h
    rw [Res.assert_eq_ok] at h1 h2
    unfold InvA.sanityCheck at h0
    simp only [Res.bind_eq_ok, Res.assert_eq_ok] at h0
    obtain ⟨_, a1, _, a2, _, a3, _, a4, _, a5, _⟩ := h0
    exact ⟨rfl, ⟨rfl, a3.symm, a4.symm, a5.symm⟩, a2, by rw [← a1, a2], h2, foldl_unit_inv h3⟩

theorem checkFlavors_inv {I : ℕ → InvA K} {S : ℕ → List (OpRow K)} {n : ℕ}
    (h : Res.foldl (checkFlavor I S) true (List.range n) = .ok true) :
    ∀ fl < n, (I fl).Aligned (I fl).cr.length ∧ (I fl).mat.rows = (I fl).cr.length ∧
      (I fl).mat.cols = (I fl).cr.length ∧ (I fl).cr.length = (S fl).length ∧ ∀ o ∈ S fl, checkOp (I fl) o = .ok () := by
  induction n with
  | zero => intro fl hfl; omega
  | succ n ih =>
    rw [List.range_succ, Res.foldl_append, Res.bind_eq_ok] at h
    obtain ⟨b, h1, h2⟩ := h
    rw [Res.foldl_cons, Res.bind_eq_ok] at h2
    obtain ⟨b2, h2, h3⟩ := h2
    rw [Res.foldl_nil] at h3
    cases h3
    obtain ⟨rfl, h4⟩ := checkFlavor_inv h2
    intro fl hfl
    by_cases e : fl = n
    · subst e; exact h4
    · exact ih h1 fl (by omega)

theorem myEqual_ne_zero {x y : K} {eps : ℝ} (he : eps ≤ 1) (h : myEqual x y eps = true) : y ≠ 0 := by
  unfold myEqual at h
  simp only [decide_eq_true_eq] at h
  rintro rfl
  obtain ⟨h1, h2⟩ := h
  have hx : x ≠ 0 := by simpa using h1
  rw [sub_zero, norm_zero, max_eq_left (norm_nonneg x), div_self (norm_ne_zero_iff.mpr hx)] at h2
  linarith

theorem recomputeFlavor_any (ht : TblOK c.NI c.nf c.tbl) {A : InvA K} {vs : List Vert} {fl n : ℕ} (hA : A.Aligned n)
    (h : A.rowList.Perm (rowsOf c.NI c.tbl vs fl)) (hint : ∀ v ∈ vs, v.nonInt = false)
    (hok : ∀ v ∈ vs, VertOK c.tbl v) :
    ∃ A' p, A.recompute c.NI c.G0 = .ok (A', detFl c vs fl, p) := by
  have e1 := flavorA_det (c := c) hA h
  by_cases hn : n = 0
  · subst hn
    have d1 : detFl c vs fl = 1 := by rw [← e1]; unfold detN; exact Matrix.det_isEmpty
    unfold InvA.recompute
    simp only [hA.an, if_true]
    exact ⟨A, 1, by rw [d1]; rfl⟩
  · have hg := good_of_rows ht hA h hint hok
    have hSr : (A.scratchMat c.NI c.G0).rows = n := hA.an
    have hd : (A.scratchMat c.NI c.G0).det = detN n (flavorA c.NI c.G0 A.an A.cr A.al) := by
      rw [DMat.det_eq hSr]
      unfold detN DMat.mat
      congr 1
      refine toM_congr fun i hi j hj => ?_
      unfold InvA.scratchMat flavorA specA specG0
      simp only [evalF_eq]
      split_ifs <;> ring
    unfold InvA.recompute
    simp only [hA.an, hA.cr, hA.al, if_neg hn]
    rw [Res.assert_true (show n ≤ n ∧ n ≤ n from ⟨le_rfl, le_rfl⟩)]
    simp only [Res.bind_ok]
    rw [Res.throwIf_false (by
      rintro ⟨i, hi, e⟩
      exact (hg i (List.mem_range.mp hi)).1 e)]
    simp only [Res.bind_ok, Res.pure_eq, hd, e1]
    exact ⟨_, _, rfl⟩

theorem recompute_signDetA (ht : TblOK c.NI c.nf c.tbl) (h : Listed c s) {s' : Sub K} (e : s.recompute c = .ok s') :
    s'.signDetA = mysign (detAll c.NI c.nf c.G0 c.tbl s.verts) := by
  have hF := fun fl (hfl : fl < c.nf) => recomputeFlavor_any ht (h.al fl hfl) (h.rows fl hfl) h.int h.ok
  choose! g p g1 using hF
  have hloop := loopSigns_spec (x := s.invA) (f := fun fl A => A.recompute c.NI c.G0) g1 (1 : K) 1
  have hloop : recomputeAll c s.invA = _ := hloop
  unfold Sub.recompute at e
  rw [Res.throwIf_false (by rw [h.idle]; simp), Res.bind_ok, hloop] at e
  simp only [Res.bind_ok] at e
  rw [Res.bind_eq_ok] at e
  obtain ⟨_, _, e⟩ := e
  rw [Res.bind_eq_ok] at e
  obtain ⟨us, _, e⟩ := e
  simp only [Res.pure_eq, Res.ok.injEq] at e
  subst e
  show (1 : K) * _ = _
  rw [one_mul, detAll_prod, mysign_prod]

/-- A check that passes between batches: the lists are right, the weight is not zero and both stored signs are right
    within the tolerance. -/
theorem sanity_inv (ht : TblOK c.NI c.nf c.tbl) (hidle : s.trying = false) (hint : ∀ v ∈ s.verts, v.nonInt = false)
    (huids : (s.verts.map Vert.uid).Nodup) (huidle : ∀ v ∈ s.verts, v.uid ≤ s.uid)
    (hok : ∀ v ∈ s.verts, VertOK c.tbl v) (hr : RanksOK c.tbl s.verts)
    (gamr : ∀ fl < c.nf, (s.gam fl).mat.rows = 0) (gamc : ∀ fl < c.nf, (s.gam fl).mat.cols = 0)
    (gami : ∀ fl < c.nf, (s.gam fl).info = [])
    (hty : ∀ fl < c.nf, ∀ i < (s.invA fl).cr.length, ∀ v ∈ s.verts, ((s.invA fl).vi.getD i default).uid = v.uid →
      ((s.invA fl).vi.getD i default).type = v.type)
    {s' : Sub K} (h : s.sanityCheck c = .ok (s', true)) :
    Listed c s ∧ weight c.NI c.nf c.G0 c.tbl s.verts ≠ 0 ∧
      myEqual s.sign (mysign (weight c.NI c.nf c.G0 c.tbl s.verts)) 1E-5 = true ∧
      myEqual s.signDetA (mysign (detAll c.NI c.nf c.G0 c.tbl s.verts)) 1E-5 = true ∧
      s.recompute c = .ok s' := by
  unfold Sub.sanityCheck at h
  rw [checkGamma_idle gami, Res.bind_ok] at h
  simp only [hidle, if_true] at h
  simp only [Res.bind_eq_ok, Res.assert_eq_ok] at h
  obtain ⟨b, h1, s2, h2, _, h3, _, h4, h5⟩ := h
  simp only [Res.pure_eq, Res.ok.injEq, Prod.mk.injEq] at h5
  obtain ⟨rfl, rfl⟩ := h5
  unfold sanityFlavors at h1
  rw [scratch_spec ht hok hint hr, Res.bind_ok] at h1
  simp only [List.nil_append] at h1
  have hc := checkFlavors_inv h1
  have hrows : ∀ fl < c.nf, (s.invA fl).rowList.Perm (rowsOf c.NI c.tbl s.verts fl) := by
    intro fl hfl
    obtain ⟨hA, _, _, hl, ho⟩ := hc fl hfl
    have hnd : (rowsOf c.NI c.tbl s.verts fl).Nodup := List.Nodup.of_map _ (rowsOf_key_nodup huids fl)
    have hsub : rowsOf c.NI c.tbl s.verts fl ⊆ (s.invA fl).rowList := by
      intro o hm
      obtain ⟨p, hp, e1, e2, e3, e4, e5⟩ := checkOp_inv (ho o hm)
      refine List.mem_map.mpr ⟨p, List.mem_range.mpr hp, ?_⟩
      obtain ⟨v, hv, r, _, _, rfl⟩ := mem_rowsOf.mp hm
      have e6 := hty fl hfl p hp v hv e4
      unfold InvA.rowAt
      rw [e1, e2, e3]
      have : (s.invA fl).vi.getD p default = (rowOf c.NI c.tbl v r).vi := by
        cases hh : (s.invA fl).vi.getD p default with
        | mk t k u =>
          rw [hh] at e4 e5 e6
          simp only [] at e4 e5 e6
          rw [e4, e5, e6]; rfl
      rw [this]
    exact ((hnd.subperm hsub).perm_of_length_le (by rw [rowList_length, hl])).symm
  have hL : Listed c s := ⟨hidle, hint, huids, huidle, hok, fun fl hfl => (hc fl hfl).1, fun fl hfl => (hc fl hfl).2.1,
    fun fl hfl => (hc fl hfl).2.2.1, hrows, gamr, gamc, gami⟩
  have hw : weight c.NI c.nf c.G0 c.tbl s.verts ≠ 0 := by
    rw [← detAll_ne_of_weight ht hok]
    have := myEqual_ne_zero (by norm_num) h4
    rw [recompute_signDetA ht hL h2] at this
    intro e
    rw [e] at this
    exact this (by simp [mysign])
  obtain ⟨s3, e, q1, q2, q3⟩ := recompute_listed ht hL hw
  rw [h2] at e
  cases e
  refine ⟨hL, hw, ?_, ?_, h2⟩
  · rw [← q2, ← q1.sgn]; exact h3
  · rw [← q2, ← q1.sgnA]; exact h4

end CTInt
