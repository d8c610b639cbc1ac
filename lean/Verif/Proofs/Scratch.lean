import Verif.Model.Scratch
import Verif.Proofs.SubMake
import Verif.Props.Safe

/-!
# The from-scratch weight and M
-/

set_option linter.all false

namespace CTInt

variable {K : Type} [RCLike K] [DecidableEq K]
variable {c : Ctx K} {s : Sub K}

theorem scratchG_val (G0 : Op → Op → K) (an cr : List Op) (al : List K) (n : ℕ) :
    (scratchG G0 an cr al n).val = flavorG G0 an cr al := by
  funext i j
  unfold scratchG flavorG specG specG0
  by_cases h : i = j <;> simp [h]

theorem foldl_mul_range (f : ℕ → Res K) (g : ℕ → K) (n : ℕ) (h : ∀ i < n, f i = .ok (g i)) :
    Res.foldl (fun (w : K) i => do
      let d ← f i
      pure (w * d)) 1 (List.range n) = .ok (∏ i ∈ Finset.range n, g i) := by
  induction n with
  | zero => rfl
  | succ n ih =>
    rw [List.range_succ, Res.foldl_append, ih fun i hi => h i (by omega), Res.bind_ok, Res.foldl_cons, h n (by omega),
      Finset.prod_range_succ]
    rfl

/-- The vectors filled for the operator pairs `l`. -/
def cwOf (l : List (OpRow K)) : CWOps K := ⟨l.map OpRow.cr, l.map OpRow.an, l.map OpRow.al⟩

theorem cwRank_spec (ht : TblOK c.NI c.nf c.tbl) {v : Vert} (hv : VertOK c.tbl v) (hi : v.nonInt = false)
    (x : ℕ → List (OpRow K)) {r : ℕ} (hr : r < (termOf c.tbl v).rank) :
    cwRank c (termOf c.tbl v) v (fun fl => cwOf (x fl)) r =
      .ok (fun fl => cwOf (x fl ++ if flavorOf c.tbl v r = fl then [rowOf c.NI c.tbl v r] else [])) := by
  have hm := termOf_mem hv.1
  have h1 : Res.get (termOf c.tbl v).flavors r = .ok (flavorOf c.tbl v r) := by
    rw [Res.get_of_lt (by rw [ht.fl _ hm]; exact hr)]
    unfold flavorOf
    rw [List.getD_eq_getElem _ _ (by rw [ht.fl _ hm]; exact hr)]
  have h2 : Res.get (termOf c.tbl v).sites (2 * r) = .ok ((termOf c.tbl v).sites.getD (2 * r) 0) := by
    rw [Res.get_of_lt (by rw [ht.si _ hm]; omega), List.getD_eq_getElem _ _ (by rw [ht.si _ hm]; omega)]
  have h3 : Res.get (termOf c.tbl v).sites (2 * r + 1) = .ok ((termOf c.tbl v).sites.getD (2 * r + 1) 0) := by
    rw [Res.get_of_lt (by rw [ht.si _ hm]; omega), List.getD_eq_getElem _ _ (by rw [ht.si _ hm]; omega)]
  have h4 : (termOf c.tbl v).getAlpha v.af r = .ok (fieldOf c.NI c.tbl v r) := by
    unfold VDef.getAlpha fieldOf
    rw [Res.assert_true ⟨(hv.2 hi).1, (hv.2 hi).2, hr⟩, hi]
    rfl
  unfold cwRank
  rw [h1, Res.bind_ok, Res.assert_true (flavorOf_lt ht hv.1 hr), Res.bind_ok, h2, Res.bind_ok, h3, Res.bind_ok, h4,
    Res.bind_ok]
  congr 1
  funext fl
  by_cases e : flavorOf c.tbl v r = fl
  · subst e
    rw [Function.update_self, if_pos rfl]
    simp [cwOf, rowOf]
  · rw [Function.update_of_ne (Ne.symm e), if_neg e, List.append_nil]

theorem cwRanks_spec (ht : TblOK c.NI c.nf c.tbl) {v : Vert} (hv : VertOK c.tbl v) (hi : v.nonInt = false)
    (l : List ℕ) (hl : ∀ r ∈ l, r < (termOf c.tbl v).rank) (x : ℕ → List (OpRow K)) :
    Res.foldl (cwRank c (termOf c.tbl v) v) (fun fl => cwOf (x fl)) l =
      .ok (fun fl => cwOf (x fl ++ (l.filter fun r => decide (flavorOf c.tbl v r = fl)).map (rowOf c.NI c.tbl v))) := by
  induction l generalizing x with
  | nil => simp
  | cons r l ih =>
    rw [Res.foldl_cons, cwRank_spec ht hv hi x (hl r (by simp)), Res.bind_ok,
      ih (fun q hq => hl q (by simp [hq]))]
    congr 1
    funext fl
    by_cases e : flavorOf c.tbl v r = fl <;> simp [e, List.filter_cons]

theorem cwVerts_spec (ht : TblOK c.NI c.nf c.tbl) {vs : List Vert} (hv : ∀ v ∈ vs, VertOK c.tbl v)
    (hi : ∀ v ∈ vs, v.nonInt = false) (hr : ∀ v ∈ vs, v.rank = (termOf c.tbl v).rank)
    (x : ℕ → List (OpRow K)) (w : K) :
    Res.foldl (cwVert c) ((fun fl => cwOf (x fl)), w) vs =
      .ok ((fun fl => cwOf (x fl ++ rowsOf c.NI c.tbl vs fl)), w * (vs.map fun v => -(termOf c.tbl v).U).prod) := by
  induction vs generalizing x w with
  | nil => simp [rowsOf]
  | cons v vs ih =>
    have hv0 := hv v (by simp)
    have e : cwVert c ((fun fl => cwOf (x fl)), w) v =
        .ok ((fun fl => cwOf (x fl ++ rowsV c.NI c.tbl fl v)), w * -(termOf c.tbl v).U) := by
      unfold cwVert
      have h1 : Res.get c.tbl v.type = .ok (termOf c.tbl v) := by
        have := hv0.1
        rw [Res.get_of_lt this]; unfold termOf; rw [List.getD_eq_getElem _ _ this]
      rw [h1, Res.bind_ok, hr v (by simp), Int.toNat_natCast]
      simp only []
      rw [cwRanks_spec ht hv0 (hi v (by simp)) _ (fun r hr => List.mem_range.mp hr)]
      rfl
    rw [Res.foldl_cons, e, Res.bind_ok, ih (fun u hu => hv u (by simp [hu])) (fun u hu => hi u (by simp [hu]))
      (fun u hu => hr u (by simp [hu]))]
    simp [rowsOf, mul_assoc]

theorem cw_flavorG (G0 : Op → Op → K) (l : List (OpRow K)) {i j : ℕ} (hi : i < l.length) (hj : j < l.length) :
    flavorG G0 (l.map OpRow.an) (l.map OpRow.cr) (l.map OpRow.al) i j = rowG G0 l i j := by
  unfold flavorG rowG specG specG0
  simp only []
  rw [List.getD_eq_getElem _ _ (by simpa using hi), List.getD_eq_getElem _ _ (by simpa using hj),
    List.getD_eq_getElem _ _ hi, List.getD_eq_getElem _ _ hj]
  rw [List.getD_eq_getElem _ _ (by simpa using hj)]
  simp

/-- `compute_weight` is the weight. -/
theorem computeWeight_spec (ht : TblOK c.NI c.nf c.tbl) {vs : List Vert} (hv : ∀ v ∈ vs, VertOK c.tbl v)
    (hi : ∀ v ∈ vs, v.nonInt = false) (hr : ∀ v ∈ vs, v.rank = (termOf c.tbl v).rank) :
    computeWeight c vs = .ok (weight c.NI c.nf c.G0 c.tbl vs) := by
  have h := cwVerts_spec ht hv hi hr (fun _ => []) 1
  have h0 : (fun fl : ℕ => cwOf ([] : List (OpRow K))) = fun _ => ⟨[], [], []⟩ := rfl
  rw [h0] at h
  unfold computeWeight
  rw [h, Res.bind_ok]
  simp only [List.nil_append, one_mul]
  rw [foldl_mul_range _ (fun fl => detGFl c vs fl) c.nf]
  · rw [Res.bind_ok]
    unfold weight uWeight
    rw [detWeight_prod hi, interacting_self hi, mul_comm]
    rfl
  · intro fl _
    have hn : (cwOf (rowsOf c.NI c.tbl vs fl)).al.length = (rowsOf c.NI c.tbl vs fl).length := by simp [cwOf]
    rw [hn, (C18_determinant_members (A := scratchG _ _ _ _ _) rfl rfl).2, scratchG_val]
    congr 1
    exact detN_congr fun i hi j hj => cw_flavorG _ _ hi hj

theorem scratchU_spec {vs : List Vert} (hok : ∀ v ∈ vs, VertOK c.tbl v) (x : K × K) :
    Res.foldl (fun (x : K × K) (v : Vert) => do
      if v.nonInt = false then do
        let d ← Res.get c.tbl v.type
        pure (x.1 * mysign (-d.U), x.2 * -d.U)
      else pure x) x vs = .ok (x.1 * mysign (uWeight c.tbl vs), x.2 * uWeight c.tbl vs) := by
  induction vs generalizing x with
  | nil =>
    have : uWeight c.tbl [] = 1 := rfl
    rw [this, mysign_one]; simp
  | cons v vs ih =>
    have h1 : Res.get c.tbl v.type = .ok (termOf c.tbl v) := by
      have := (hok v (by simp)).1
      rw [Res.get_of_lt this]; unfold termOf; rw [List.getD_eq_getElem _ _ this]
    by_cases hn : v.nonInt = false
    · have e : uWeight c.tbl (v :: vs) = -(termOf c.tbl v).U * uWeight c.tbl vs := by
        simp [uWeight, interacting, hn]
      rw [Res.foldl_cons, if_pos hn, h1, Res.bind_ok, Res.pure_eq, Res.bind_ok, ih fun u hu => hok u (by simp [hu]), e,
        mysign_mul]
      simp only [mul_assoc]
    · have e : uWeight c.tbl (v :: vs) = uWeight c.tbl vs := by
        have hn : v.nonInt = true := by simpa using hn
        simp [uWeight, interacting, hn]
      rw [Res.foldl_cons, if_neg hn, Res.pure_eq, Res.bind_ok, ih fun u hu => hok u (by simp [hu]), e]

theorem IsInvOf.unique {X Y : DMat K} {n : ℕ} {g : ℕ → ℕ → K} (hX : IsInvOf X n g) (hY : IsInvOf Y n g) :
    ∀ i < n, ∀ j < n, X.val i j = Y.val i j := by
  have h : toM n n X.val = toM n n Y.val :=
    calc toM n n X.val = toM n n X.val * (toM n n g * toM n n Y.val) := by
          rw [_root_.mul_eq_one_comm.mp hY.2.2, mul_one]
      _ = toM n n Y.val := by rw [← mul_assoc, hX.2.2, one_mul]
  exact toM_eq_iff.mp h

/-- `compute_M_from_scratch` between batches. -/
theorem computeMScratch_spec (ht : TblOK c.NI c.nf c.tbl) (h : ReadyInv c s)
    (hw : weight c.NI c.nf c.G0 c.tbl s.verts ≠ 0) :
    ∃ M, Sub.computeMScratch c s = .ok (M, s.sign, weight c.NI c.nf c.G0 c.tbl s.verts) ∧
      ∀ fl < c.nf, IsInvOf (M fl) (s.invA fl).rowList.length (rowG c.G0 (s.invA fl).rowList) := by
  have hd : ∀ fl < c.nf, detGFl c s.verts fl ≠ 0 := by
    unfold weight at hw
    rw [detWeight_prod h.int] at hw
    intro fl hfl
    exact Finset.prod_ne_zero_iff.mp (left_ne_zero_of_mul hw) fl (Finset.mem_range.mpr hfl)
  have key : ∀ k ≤ c.nf, ∃ M : ℕ → DMat K, Res.foldl (fun (x : (ℕ → DMat K) × K × K) fl => do
      let A := s.invA fl
      let n := A.mat.cols
      if 0 < n then do
        Res.assert (n ≤ A.an.length ∧ n ≤ A.cr.length ∧ n ≤ A.al.length)
        let G := scratchG c.G0 A.an A.cr A.al n
        let d ← rmDet G
        let Gi ← rmInvert G
        pure (Function.update x.1 fl Gi, x.2.1 * mysign d, x.2.2 * d)
      else pure (Function.update x.1 fl ⟨0, 0, fun _ _ => 0⟩, x.2.1, x.2.2))
      ((fun _ => ⟨0, 0, fun _ _ => 0⟩), 1, 1) (List.range k) =
        .ok (M, mysign (∏ fl ∈ Finset.range k, detGFl c s.verts fl), ∏ fl ∈ Finset.range k, detGFl c s.verts fl) ∧
      ∀ fl < k, IsInvOf (M fl) (s.invA fl).rowList.length (rowG c.G0 (s.invA fl).rowList) := by
    intro k hk
    induction k with
    | zero => exact ⟨_, by rw [Finset.prod_range_zero, mysign_one]; rfl, fun fl hfl => absurd hfl (by omega)⟩
    | succ k ih =>
      obtain ⟨M, e, q⟩ := ih (by omega)
      have hA := h.al k (by omega)
      have hI := h.inv k (by omega)
      set n := (s.invA k).cr.length with hn
      have hdet := flavorG_det (c := c) hA (h.rows k (by omega))
      by_cases h0 : 0 < n
      · obtain ⟨Y, eY, qY⟩ := C18_invert (A := scratchG c.G0 (s.invA k).an (s.invA k).cr (s.invA k).al n)
          (n := n) rfl rfl (by rw [scratchG_val, hdet]; exact hd k (by omega))
        have e1 := (C18_determinant_members (A := scratchG c.G0 (s.invA k).an (s.invA k).cr (s.invA k).al n)
          (n := n) rfl rfl).1
        rw [scratchG_val, hdet] at e1
        refine ⟨Function.update M k Y, ?_, ?_⟩
        · rw [List.range_succ, Res.foldl_append, e, Res.bind_ok, Res.foldl_cons]
          simp only [hI.2.1, if_pos h0]
          rw [Res.assert_true ⟨by rw [hA.an], by rw [hA.cr], by rw [hA.al]⟩, Res.bind_ok, e1, Res.bind_ok, eY,
            Res.bind_ok, Finset.prod_range_succ, mysign_mul]
          rfl
        · intro fl hfl
          by_cases e2 : fl = k
          · subst e2
            rw [Function.update_self, rowList_length]
            rw [scratchG_val] at qY
            exact qY.congr' fun i hi j hj => (flavorG_rows c.G0 hA hi hj).symm
          · rw [Function.update_of_ne e2]
            exact q fl (by omega)
      · have h0' : n = 0 := by omega
        rw [h0'] at hdet
        have d1 : detGFl c s.verts k = 1 := by rw [← hdet]; exact detN_zero _
        refine ⟨Function.update M k ⟨0, 0, fun _ _ => 0⟩, ?_, ?_⟩
        · rw [List.range_succ, Res.foldl_append, e, Res.bind_ok, Res.foldl_cons]
          simp only [hI.2.1, if_neg h0]
          rw [Finset.prod_range_succ, d1, mul_one]
          rfl
        · intro fl hfl
          by_cases e2 : fl = k
          · subst e2
            rw [Function.update_self, rowList_length, ← hn, h0']
            exact ⟨rfl, rfl, by ext i; exact i.elim0⟩
          · rw [Function.update_of_ne e2]
            exact q fl (by omega)
  obtain ⟨M, e, q⟩ := key c.nf le_rfl
  refine ⟨M, ?_, q⟩
  unfold Sub.computeMScratch
  rw [e, Res.bind_ok]
  simp only []
  rw [scratchU_spec h.ok]
  rw [Res.bind_ok]
  simp only []
  rw [← mysign_mul, h.sgn]
  unfold weight
  rw [detWeight_prod h.int]
  rfl

end CTInt
