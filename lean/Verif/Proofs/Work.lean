import Verif.Model.Submatrix
import Verif.Proofs.Config

/-!
# The work lists of a trial
-/

set_option linter.all false

open Matrix

namespace CTInt

theorem forFlavors_spec {α : Type} {nf : ℕ} {f : ℕ → α → Res α} {x : ℕ → α} {P : ℕ → α → Prop}
    (h : ∀ fl < nf, ∃ y, f fl (x fl) = .ok y ∧ P fl y) :
    ∃ y, forFlavors nf f x = .ok y ∧ (∀ fl < nf, P fl (y fl)) ∧ ∀ fl, nf ≤ fl → y fl = x fl := by
  unfold forFlavors
  induction nf with
  | zero => exact ⟨x, rfl, fun fl h => absurd h (by omega), fun _ _ => rfl⟩
  | succ n ih =>
    obtain ⟨y, e, h1, h2⟩ := ih fun fl hfl => h fl (by omega)
    obtain ⟨z, e2, hz⟩ := h n (by omega)
    rw [List.range_succ, Res.foldl_append, e, Res.bind_ok, Res.foldl_cons, h2 n le_rfl, e2]
    refine ⟨Function.update y n z, rfl, ?_, ?_⟩
    · intro fl hfl
      by_cases hn : fl = n
      · subst hn; rw [Function.update_self]; exact hz
      · rw [Function.update_of_ne hn]; exact h1 fl (by omega)
    · intro fl hfl
      rw [Function.update_of_ne (by omega)]; exact h2 fl (by omega)

theorem forFlavors_inv {α : Type} {nf : ℕ} {f : ℕ → α → Res α} {x y : ℕ → α}
    (h : forFlavors nf f x = .ok y) :
    (∀ fl < nf, f fl (x fl) = .ok (y fl)) ∧ ∀ fl, nf ≤ fl → y fl = x fl := by
  unfold forFlavors at h
  induction nf generalizing y with
  | zero => simp at h; subst h; exact ⟨fun fl h => absurd h (by omega), fun _ _ => rfl⟩
  | succ n ih =>
    rw [List.range_succ, Res.foldl_append, Res.bind_eq_ok] at h
    obtain ⟨z, e, h⟩ := h
    obtain ⟨i1, i2⟩ := ih e
    rw [Res.foldl_cons, Res.bind_eq_ok] at h
    obtain ⟨u, h, h'⟩ := h
    rw [Res.foldl_nil] at h'
    rw [Res.bind_eq_ok] at h
    obtain ⟨w, h, h''⟩ := h
    simp only [Res.pure_eq, Res.ok.injEq] at h' h''
    subst h'; subst h''
    refine ⟨fun fl hfl => ?_, fun fl hfl => ?_⟩
    · by_cases hn : fl = n
      · subst hn; rw [Function.update_self, ← i2 fl le_rfl]; exact h
      · rw [Function.update_of_ne hn]; exact i1 fl (by omega)
    · rw [Function.update_of_ne (by omega)]; exact i2 fl (by omega)

theorem loopProd_spec {K α : Type} [CommMonoid K] {nf : ℕ} {f : ℕ → α → Res (α × K)} {x : ℕ → α} {g : ℕ → α}
    {r : ℕ → K} (h : ∀ fl < nf, f fl (x fl) = .ok (g fl, r fl)) (a : K) :
    Res.foldl (fun (y : (ℕ → α) × K) fl => do
      let (G, q) ← f fl (y.1 fl)
      pure (Function.update y.1 fl G, y.2 * q)) (x, a) (List.range nf) =
    .ok (fun fl => if fl < nf then g fl else x fl, a * ∏ fl ∈ Finset.range nf, r fl) := by
  induction nf with
  | zero => simp
  | succ n ih =>
    rw [List.range_succ, Res.foldl_append, ih fun fl hfl => h fl (by omega)]
    simp only [Res.bind_ok, Res.foldl_cons, Res.foldl_nil, if_neg (show ¬ n < n by omega), h n (by omega),
      Res.pure_eq]
    rw [Finset.prod_range_succ, mul_assoc]
    congr 2
    funext fl
    by_cases hn : fl = n
    · subst hn; rw [Function.update_self, if_pos (by omega)]
    · rw [Function.update_of_ne hn]
      by_cases h2 : fl < n
      · rw [if_pos h2, if_pos (by omega)]
      · rw [if_neg h2, if_neg (by omega)]

variable {K : Type} [RCLike K] [DecidableEq K]

/-! ### Signs -/

theorem mysign_mul (x y : K) : mysign (x * y) = mysign x * mysign y := by
  unfold mysign
  rw [norm_mul, RCLike.ofReal_mul, mul_div_mul_comm]

theorem mysign_one : mysign (1 : K) = 1 := by simp [mysign]

theorem mysign_inv (x : K) : mysign x⁻¹ = (mysign x)⁻¹ := by
  unfold mysign
  rw [norm_inv, RCLike.ofReal_inv, inv_div_inv, inv_div]

theorem mysign_div (x y : K) : mysign (x / y) = mysign x / mysign y := by
  rw [div_eq_mul_inv, mysign_mul, mysign_inv, ← div_eq_mul_inv]

theorem norm_mysign {x : K} (h : x ≠ 0) : ‖mysign x‖ = 1 := by
  unfold mysign
  rw [norm_div, RCLike.norm_ofReal, abs_norm, div_self (norm_ne_zero_iff.mpr h)]

theorem mysign_ne_zero {x : K} (h : x ≠ 0) : mysign x ≠ 0 := by
  rw [← norm_ne_zero_iff, norm_mysign h]; exact one_ne_zero

theorem mysign_mysign (x : K) : mysign (mysign x) = mysign x := by
  by_cases h : x = 0
  · subst h; simp [mysign]
  · have := norm_mysign h
    conv_lhs => unfold mysign
    change mysign x / ((‖mysign x‖ : ℝ) : K) = mysign x
    rw [this]; simp

theorem mysign_prod {ι : Type} (s : Finset ι) (f : ι → K) : mysign (∏ i ∈ s, f i) = ∏ i ∈ s, mysign (f i) := by
  classical
  induction s using Finset.induction_on with
  | empty => simp [mysign_one]
  | insert a s ha ih => rw [Finset.prod_insert ha, Finset.prod_insert ha, mysign_mul, ih]

theorem mysign_listProd (l : List K) : mysign l.prod = (l.map mysign).prod := by
  induction l with
  | nil => simp [mysign_one]
  | cons a l ih => rw [List.prod_cons, mysign_mul, ih]; rfl

/-! ### One pair, one vertex -/

/-- The spin is "non-interacting" or a state of the vertex. -/
def SpinOK (tbl : List (VDef K)) (v : Vert) (s : ℤ) : Prop := s = -1 ∨ 0 ≤ s ∧ s < (termOf tbl v).numAf

theorem flipTo_ok {tbl : List (VDef K)} {v : Vert} {s : ℤ} (hv : VertOK tbl v) (hs : SpinOK tbl v s) :
    VertOK tbl (flipTo v s) := by
  unfold flipTo
  rcases hs with rfl | hs
  · rw [if_pos rfl]; exact ⟨hv.1, fun h => by simp at h⟩
  · rw [if_neg (by omega)]; exact ⟨hv.1, fun _ => hs⟩

theorem alphaOf_eq {NI : K} {tbl : List (VDef K)} {v : Vert} (hv : VertOK tbl v) {r : ℕ}
    (hr : r < (termOf tbl v).rank) :
    alphaOf NI (termOf tbl v) v.nonInt v.af r = .ok (fieldOf NI tbl v r) := by
  unfold alphaOf fieldOf VDef.getAlpha
  cases h : v.nonInt with
  | true => simp
  | false =>
    obtain ⟨h1, h2⟩ := hv.2 h
    simp only [Bool.false_eq_true, if_false, Res.assert_true (show 0 ≤ v.af ∧ v.af < (termOf tbl v).numAf ∧
      r < (termOf tbl v).rank from ⟨h1, h2, hr⟩), Res.bind_ok, Res.pure_eq]

theorem alphaOf_new {NI : K} {tbl : List (VDef K)} {v : Vert} {s : ℤ} (hv : VertOK tbl v) (hs : SpinOK tbl v s)
    {r : ℕ} (hr : r < (termOf tbl v).rank) :
    alphaOf NI (termOf tbl v) (decide (s = -1)) s r = .ok (fieldOf NI tbl (flipTo v s) r) := by
  have ht : termOf tbl (flipTo v s) = termOf tbl v := (SameVertex.flip v s).term
  have h := alphaOf_eq (NI := NI) (flipTo_ok hv hs) (r := r) (by rw [ht]; exact hr)
  rw [ht] at h
  rw [← h]
  unfold flipTo
  by_cases hs' : s = -1
  · simp [hs', alphaOf]
  · simp [hs', alphaOf]

namespace Sub

/-- The operator update of pair `r` of the vertex at position `x.1` flipped to `x.2`, with its flavor. -/
noncomputable def elemOf (c : Ctx K) (s : Sub K) (x : ℕ × ℤ) (r : ℕ) : ℕ × OpU K :=
  let v := s.verts.getD x.1 default
  let fl := flavorOf c.tbl v r
  (fl, ⟨((s.invA fl).findRowCol v.uid r).getD 0, fieldOf c.NI c.tbl (s.verts0.getD x.1 default) r,
    fieldOf c.NI c.tbl v r, fieldOf c.NI c.tbl (flipTo v x.2) r⟩)

/-- One step of the work. -/
noncomputable def workStep (NI : K) (w : Work K) (x : ℕ × OpU K) : Work K :=
  { classify w x.1 x.2 with f := fFactor NI (classify w x.1 x.2).f x.2 }

/-- The updates of one vertex of the trial. -/
noncomputable def elemsV (c : Ctx K) (s : Sub K) (x : ℕ × ℤ) : List (ℕ × OpU K) :=
  (List.range (termOf c.tbl (s.verts.getD x.1 default)).rank).map (elemOf c s x)

/-- What the trial needs: positions exist, spins exist, the vertices are usable and every pair is found. -/
structure WorkOK (c : Ctx K) (s : Sub K) (x : ℕ × ℤ) : Prop where
  lt : x.1 < s.verts.length
  lt0 : x.1 < s.verts0.length
  ok : VertOK c.tbl (s.verts.getD x.1 default)
  ok0 : VertOK c.tbl (s.verts0.getD x.1 default)
  same : SameVertex (s.verts0.getD x.1 default) (s.verts.getD x.1 default)
  spin : SpinOK c.tbl (s.verts.getD x.1 default) x.2
  found : ∀ r < (termOf c.tbl (s.verts.getD x.1 default)).rank,
    ((s.invA (flavorOf c.tbl (s.verts.getD x.1 default) r)).findRowCol (s.verts.getD x.1 default).uid r).isSome

theorem workRank_spec {c : Ctx K} (ht : TblOK c.NI c.nf c.tbl) {s : Sub K} {x : ℕ × ℤ} (h : WorkOK c s x)
    (w : Work K) {r : ℕ} (hr : r < (termOf c.tbl (s.verts.getD x.1 default)).rank) :
    workRank c s x.1 x.2 (termOf c.tbl (s.verts.getD x.1 default)) (s.verts.getD x.1 default)
      (s.verts0.getD x.1 default) w r = .ok (workStep c.NI w (elemOf c s x r)) := by
  set v := s.verts.getD x.1 default with hv
  have hm := termOf_mem h.ok.1
  have hfl : r < (termOf c.tbl v).flavors.length := by rw [ht.fl _ hm]; exact hr
  have e0 := alphaOf_eq (NI := c.NI) h.ok0 (r := r) (by rw [← h.same.term]; exact hr)
  rw [← h.same.term] at e0
  have efl : (termOf c.tbl v).flavors[r] = flavorOf c.tbl v r := by
    unfold flavorOf; rw [List.getD_eq_getElem _ _ hfl]
  obtain ⟨p, hp⟩ := Option.isSome_iff_exists.mp (h.found r hr)
  unfold workRank
  simp only [Res.get_of_lt hfl, Res.bind_ok]
  rw [e0, alphaOf_eq h.ok hr, alphaOf_new h.ok h.spin hr]
  simp only [Res.bind_ok, efl]
  rw [Res.assert_true (flavorOf_lt ht h.ok.1 hr)]
  simp only [Res.bind_ok]
  rw [← hv] at hp
  rw [hp]
  simp only [elemOf, ← hv, hp, workStep, Res.pure_eq, Option.getD_some]

theorem workRanks_spec {c : Ctx K} (ht : TblOK c.NI c.nf c.tbl) {s : Sub K} {x : ℕ × ℤ} (h : WorkOK c s x)
    (w : Work K) (l : List ℕ) (hl : ∀ r ∈ l, r < (termOf c.tbl (s.verts.getD x.1 default)).rank) :
    Res.foldl (workRank c s x.1 x.2 (termOf c.tbl (s.verts.getD x.1 default)) (s.verts.getD x.1 default)
      (s.verts0.getD x.1 default)) w l = .ok ((l.map (elemOf c s x)).foldl (workStep c.NI) w) := by
  induction l generalizing w with
  | nil => rfl
  | cons r l ih =>
    rw [Res.foldl_cons, workRank_spec ht h w (hl r (by simp)), Res.bind_ok, ih _ fun q hq => hl q (by simp [hq])]
    rfl

theorem workVert_spec {c : Ctx K} (ht : TblOK c.NI c.nf c.tbl) {s : Sub K} {x : ℕ × ℤ} (h : WorkOK c s x)
    (w : Work K) :
    workVert c s w x = .ok ((elemsV c s x).foldl (workStep c.NI)
      { w with u := w.u * (vU c.tbl (flipTo (s.verts.getD x.1 default) x.2) / vU c.tbl (s.verts.getD x.1 default)) }) := by
  have hU := ht.U _ (termOf_mem h.ok.1)
  unfold workVert
  have ev : s.verts[x.1]'h.lt = s.verts.getD x.1 default := (List.getD_eq_getElem _ _ h.lt).symm
  have ev0 : s.verts0[x.1]'h.lt0 = s.verts0.getD x.1 default := (List.getD_eq_getElem _ _ h.lt0).symm
  simp only [Res.get_of_lt h.lt, Res.get_of_lt h.lt0, Res.bind_ok, ev, ev0]
  set v := s.verts.getD x.1 default with hv
  have hlt : v.type < c.tbl.length := h.ok.1
  have et : Res.get c.tbl v.type = .ok (termOf c.tbl v) := by
    unfold termOf; rw [List.getD_eq_getElem _ _ hlt, Res.get_of_lt hlt]
  rw [et]
  simp only [Res.bind_ok]
  have hu : (if v.nonInt = true ∧ x.2 ≠ -1 then { w with u := w.u * -(termOf c.tbl v).U }
      else if v.nonInt = false ∧ x.2 = -1 then { w with u := w.u / -(termOf c.tbl v).U } else w : Work K) =
      { w with u := w.u * (vU c.tbl (flipTo v x.2) / vU c.tbl v) } := by
    have ht2 : termOf c.tbl (flipTo v x.2) = termOf c.tbl v := (SameVertex.flip v x.2).term
    have hU' : -(termOf c.tbl v).U ≠ 0 := neg_ne_zero.mpr hU
    cases hn : v.nonInt with
    | true =>
      by_cases hs : x.2 = -1
      · have : vU c.tbl (flipTo v x.2) = 1 := by simp [vU, flipTo, hs]
        simp [hs, vU, hn, flipTo]
      · have e1 : vU c.tbl (flipTo v x.2) = -(termOf c.tbl v).U := by
          unfold vU; rw [ht2]; simp [flipTo, hs]
        have e2 : vU c.tbl v = 1 := by simp [vU, hn]
        simp [hs, e1, e2]
    | false =>
      have e2 : vU c.tbl v = -(termOf c.tbl v).U := by simp [vU, hn]
      by_cases hs : x.2 = -1
      · have e1 : vU c.tbl (flipTo v x.2) = 1 := by simp [vU, flipTo, hs]
        rw [if_neg (by simp), if_pos ⟨rfl, hs⟩, e1, e2]
        congr 1
        rw [mul_one_div]
      · have e1 : vU c.tbl (flipTo v x.2) = -(termOf c.tbl v).U := by
          unfold vU; rw [ht2]; simp [flipTo, hs]
        rw [if_neg (by simp), if_neg (by simp [hs]), e1, e2, div_self hU', mul_one]
  rw [hu]
  exact workRanks_spec ht h _ _ fun r hr => List.mem_range.mp hr

/-! ### The lists -/

/-- Goes back to the batch-start value. -/
def isRem (o : OpU K) : Bool := decide (o.a0 ≠ o.cur ∧ o.a0 = o.new)
/-- Leaves the batch-start value. -/
def isIns (o : OpU K) : Bool := decide (o.a0 = o.cur ∧ o.a0 ≠ o.new)
/-- Goes from one changed value to another. -/
def isRep (o : OpU K) : Bool := decide (o.a0 ≠ o.cur ∧ o.a0 ≠ o.new ∧ o.cur ≠ o.new)

/-- Updates on one flavor. -/
def onFl (fl : ℕ) (l : List (ℕ × OpU K)) : List (OpU K) := (l.filter fun x => decide (x.1 = fl)).map Prod.snd

theorem classify_spec (w : Work K) (fl : ℕ) (o : OpU K) (g : ℕ) :
    (classify w fl o).rem g = w.rem g ++ (if fl = g then [o].filter isRem else []) ∧
    (classify w fl o).ins g = w.ins g ++ (if fl = g then [o].filter isIns else []) ∧
    (classify w fl o).rep g = w.rep g ++ (if fl = g then [o].filter isRep else []) ∧
    (classify w fl o).f = w.f ∧ (classify w fl o).u = w.u := by
  have hp : ∀ (y : ℕ → List (OpU K)), pushTo y fl o g = y g ++ (if fl = g then [o] else []) := by
    intro y
    unfold pushTo
    by_cases h : fl = g
    · subst h; simp
    · rw [Function.update_of_ne (fun e => h e.symm), if_neg h, List.append_nil]
  unfold classify isRem isIns isRep
  by_cases h1 : o.a0 = o.cur <;> by_cases h2 : o.a0 = o.new <;> by_cases h3 : o.cur = o.new <;>
    by_cases h4 : fl = g <;> simp [h1, h2, h3, h4, hp, List.filter_cons] <;> simp_all

theorem step_lists (NI : K) (l : List (ℕ × OpU K)) (w : Work K) (g : ℕ) :
    (l.foldl (workStep NI) w).rem g = w.rem g ++ (onFl g l).filter isRem ∧
    (l.foldl (workStep NI) w).ins g = w.ins g ++ (onFl g l).filter isIns ∧
    (l.foldl (workStep NI) w).rep g = w.rep g ++ (onFl g l).filter isRep ∧
    (l.foldl (workStep NI) w).u = w.u := by
  induction l generalizing w with
  | nil => simp [onFl]
  | cons x l ih =>
    rw [List.foldl_cons]
    obtain ⟨i1, i2, i3, i4⟩ := ih (workStep NI w x)
    obtain ⟨c1, c2, c3, c4, c5⟩ := classify_spec w x.1 x.2 g
    have d1 : (workStep NI w x).rem = (classify w x.1 x.2).rem := rfl
    have d2 : (workStep NI w x).ins = (classify w x.1 x.2).ins := rfl
    have d3 : (workStep NI w x).rep = (classify w x.1 x.2).rep := rfl
    have d4 : (workStep NI w x).u = (classify w x.1 x.2).u := rfl
    rw [i1, i2, i3, i4, d1, d2, d3, d4, c1, c2, c3, c5]
    have e : onFl g (x :: l) = (if x.1 = g then [x.2] else []) ++ onFl g l := by
      unfold onFl
      rw [List.filter_cons]
      by_cases h : x.1 = g <;> simp [h]
    rw [e]
    by_cases h : x.1 = g
    · simp only [h, if_true, List.filter_append, List.append_assoc, and_self]
    · simp only [h, if_false, List.filter_append, List.append_nil, List.filter_nil, List.nil_append, and_self]

theorem fFactor_eq {NI f : K} {o : OpU K} (h1 : OkAlpha NI o.cur) :
    fFactor NI f o = f * (oneMinusF NI o.new / oneMinusF NI o.cur) := by
  have hc := oneMinusF_ne_zero h1
  unfold fFactor
  by_cases h : o.cur = o.new
  · rw [if_neg (by simpa using h), ← h, div_self hc, mul_one]
  · rw [if_pos h]
    simp only [evalF_eq]
    unfold oneMinusF
    by_cases h3 : o.new = NI <;> by_cases h4 : o.cur = NI
    · simp [h3, h4]
    · simp [h3, h4]; rw [div_eq_mul_inv]
    · simp [h3, h4]
    · simp [h3, h4]; rw [mul_div_assoc]

theorem step_f (NI : K) (l : List (ℕ × OpU K)) (h : ∀ x ∈ l, OkAlpha NI x.2.cur) (w : Work K) :
    (l.foldl (workStep NI) w).f =
      w.f * (l.map fun x => oneMinusF NI x.2.new / oneMinusF NI x.2.cur).prod := by
  induction l generalizing w with
  | nil => simp
  | cons x l ih =>
    rw [List.foldl_cons, ih (fun y hy => h y (by simp [hy])), List.map_cons, List.prod_cons]
    have : (workStep NI w x).f = w.f * (oneMinusF NI x.2.new / oneMinusF NI x.2.cur) := by
      have e : (workStep NI w x).f = fFactor NI (classify w x.1 x.2).f x.2 := rfl
      rw [e, fFactor_eq (h x (by simp)), (classify_spec w x.1 x.2 0).2.2.2.1]
    rw [this, mul_assoc]

theorem foldl_u (NI : K) (l : List (ℕ × OpU K)) (w : Work K) (u : K) :
    l.foldl (workStep NI) { w with u := u } = { l.foldl (workStep NI) w with u := u } := by
  induction l generalizing w with
  | nil => rfl
  | cons x l ih =>
    rw [List.foldl_cons, List.foldl_cons, ← ih]
    congr 1
    unfold workStep
    have : classify { w with u := u } x.1 x.2 = { classify w x.1 x.2 with u := u } := by
      unfold classify
      split_ifs <;> rfl
    rw [this]

/-- All updates of the trial. -/
noncomputable def elems (c : Ctx K) (s : Sub K) (ps : List (ℕ × ℤ)) : List (ℕ × OpU K) :=
  ps.flatMap (elemsV c s)

theorem work_spec {c : Ctx K} (ht : TblOK c.NI c.nf c.tbl) {s : Sub K} {ps : List (ℕ × ℤ)}
    (h : ∀ x ∈ ps, WorkOK c s x) (w : Work K) :
    Res.foldl (workVert c s) w ps = .ok ((elems c s ps).foldl (workStep c.NI)
      { w with u := w.u * (ps.map fun x => vU c.tbl (flipTo (s.verts.getD x.1 default) x.2) /
        vU c.tbl (s.verts.getD x.1 default)).prod }) := by
  induction ps generalizing w with
  | nil => simp [elems]
  | cons x ps ih =>
    rw [Res.foldl_cons, workVert_spec ht (h x (by simp)), Res.bind_ok, ih fun y hy => h y (by simp [hy])]
    have e : elems c s (x :: ps) = elemsV c s x ++ elems c s ps := rfl
    rw [e, List.foldl_append]
    congr 2
    rw [List.map_cons, List.prod_cons]
    generalize vU c.tbl (flipTo (s.verts.getD x.1 default) x.2) / vU c.tbl (s.verts.getD x.1 default) = a
    generalize (ps.map fun x => vU c.tbl (flipTo (s.verts.getD x.1 default) x.2) /
        vU c.tbl (s.verts.getD x.1 default)).prod = b
    rw [foldl_u c.NI (elemsV c s x) w (w.u * a), foldl_u c.NI (elemsV c s x) w (w.u * (a * b)), ← mul_assoc]

/-- The ratio of the (1-f) products over the updates of a vertex. -/
theorem elemsV_f {c : Ctx K} {s : Sub K} {x : ℕ × ℤ} :
    ((elemsV c s x).map fun y => oneMinusF c.NI y.2.new / oneMinusF c.NI y.2.cur).prod =
      vF c.NI c.tbl (flipTo (s.verts.getD x.1 default) x.2) / vF c.NI c.tbl (s.verts.getD x.1 default) := by
  have ht : termOf c.tbl (flipTo (s.verts.getD x.1 default) x.2) = termOf c.tbl (s.verts.getD x.1 default) :=
    (SameVertex.flip _ x.2).term
  unfold elemsV vF
  rw [ht, ← Finset.prod_div_distrib, List.map_map]
  generalize (termOf c.tbl (s.verts.getD x.1 default)).rank = n
  induction n with
  | zero => simp
  | succ n ih =>
    rw [List.range_succ, List.map_append, List.prod_append, ih, Finset.prod_range_succ]
    simp [elemOf]

theorem elems_f {c : Ctx K} {s : Sub K} {ps : List (ℕ × ℤ)} :
    ((elems c s ps).map fun y => oneMinusF c.NI y.2.new / oneMinusF c.NI y.2.cur).prod =
      (ps.map fun x => vF c.NI c.tbl (flipTo (s.verts.getD x.1 default) x.2) /
        vF c.NI c.tbl (s.verts.getD x.1 default)).prod := by
  induction ps with
  | nil => rfl
  | cons x ps ih =>
    have e : elems c s (x :: ps) = elemsV c s x ++ elems c s ps := rfl
    rw [e, List.map_append, List.prod_append, ih, elemsV_f, List.map_cons, List.prod_cons]

/-- The updates on flavor `fl`, vertex by vertex. -/
theorem onFl_elems {c : Ctx K} {s : Sub K} {ps : List (ℕ × ℤ)} {fl : ℕ} {o : OpU K} :
    o ∈ onFl fl (elems c s ps) ↔ ∃ x ∈ ps, ∃ r < (termOf c.tbl (s.verts.getD x.1 default)).rank,
      flavorOf c.tbl (s.verts.getD x.1 default) r = fl ∧ o = (elemOf c s x r).2 := by
  unfold onFl elems elemsV
  simp only [List.mem_map, List.mem_filter, List.mem_flatMap, List.mem_range, decide_eq_true_eq]
  constructor
  · rintro ⟨y, ⟨⟨x, hx, r, hr, rfl⟩, h2⟩, rfl⟩
    exact ⟨x, hx, r, hr, h2, rfl⟩
  · rintro ⟨x, hx, r, hr, h2, rfl⟩
    exact ⟨_, ⟨⟨x, hx, r, hr, rfl⟩, h2⟩, rfl⟩

theorem onFl_append (fl : ℕ) (l m : List (ℕ × OpU K)) : onFl fl (l ++ m) = onFl fl l ++ onFl fl m := by
  simp [onFl]

theorem onFl_keys {c : Ctx K} {s : Sub K} {ps : List (ℕ × ℤ)} {fl : ℕ} (κ : OpU K → ℕ × ℕ)
    (hκ : ∀ x ∈ ps, ∀ r < (termOf c.tbl (s.verts.getD x.1 default)).rank,
      flavorOf c.tbl (s.verts.getD x.1 default) r = fl →
        κ (elemOf c s x r).2 = ((s.verts.getD x.1 default).uid, r)) :
    (onFl fl (elems c s ps)).map κ =
      (rowsOf c.NI c.tbl (ps.map fun x => s.verts.getD x.1 default) fl).map rowKey := by
  induction ps with
  | nil => rfl
  | cons x ps ih =>
    have e : elems c s (x :: ps) = elemsV c s x ++ elems c s ps := rfl
    have e2 : rowsOf c.NI c.tbl ((x :: ps).map fun x => s.verts.getD x.1 default) fl =
      rowsV c.NI c.tbl fl (s.verts.getD x.1 default) ++
        rowsOf c.NI c.tbl (ps.map fun x => s.verts.getD x.1 default) fl := rfl
    rw [e, e2, onFl_append, List.map_append, List.map_append, ih fun y hy => hκ y (by simp [hy])]
    congr 1
    unfold onFl elemsV rowsV
    rw [List.filter_map, List.map_map, List.map_map, List.map_map]
    have hf : ((fun y : ℕ × OpU K => decide (y.1 = fl)) ∘ elemOf c s x) =
        fun r => decide (flavorOf c.tbl (s.verts.getD x.1 default) r = fl) := rfl
    rw [hf]
    refine List.map_congr_left fun r hr => ?_
    rw [List.mem_filter, List.mem_range] at hr
    exact hκ x (by simp) r hr.1 (by simpa using hr.2)

end Sub
end CTInt
