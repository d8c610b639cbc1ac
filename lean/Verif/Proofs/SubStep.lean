import Verif.Proofs.SubMixed

/-!
# Trials, acceptance and rejection in `SubmatrixUpdate`
-/

set_option linter.all false

open Matrix

namespace CTInt

variable {K : Type} [RCLike K] [DecidableEq K]
variable {c : Ctx K} {s : Sub K} {pos : List ℕ} {spins : List ℤ}

theorem detAll_prod (c : Ctx K) (vs : List Vert) :
    detAll c.NI c.nf c.G0 c.tbl vs = ∏ fl ∈ Finset.range c.nf, detFl c vs fl := rfl

instance : Nonempty (Gamma K) := ⟨Gamma.empty⟩

theorem listProd_div {α : Type} (l : List α) (f g : α → K) :
    (l.map fun x => f x / g x).prod = (l.map f).prod / (l.map g).prod := by
  induction l with
  | nil => simp
  | cons a l ih => rw [List.map_cons, List.prod_cons, ih, List.map_cons, List.map_cons, List.prod_cons, List.prod_cons,
      div_mul_div_comm]

theorem setSpin_eq {vs : List Vert} {p : ℕ} (h : p < vs.length) (x : ℤ) :
    Sub.setSpin vs p x = .ok (vs.modify p (flipTo · x)) := by
  unfold Sub.setSpin
  rw [List.getElem?_eq_getElem h]
  simp only [Res.ok.injEq]
  rw [List.modify_eq_set_getElem?, List.getElem?_eq_getElem h]
  rfl

theorem setSpins_eq {vs : List Vert} {ps : List (ℕ × ℤ)} (h : ∀ x ∈ ps, x.1 < vs.length) :
    Res.foldl (fun vs (x : ℕ × ℤ) => Sub.setSpin vs x.1 x.2) vs ps = .ok (flipAll vs ps) := by
  induction ps generalizing vs with
  | nil => rfl
  | cons x ps ih =>
    rw [Res.foldl_cons, setSpin_eq (h x (by simp)), Res.bind_ok, ih]
    · rfl
    · intro y hy
      rw [List.length_modify]
      exact h y (by simp [hy])

theorem detAll_ne_zero (ht : TblOK c.NI c.nf c.tbl) (h : TryInv c s) :
    detAll c.NI c.nf c.G0 c.tbl s.verts ≠ 0 := by
  rw [detAll_prod]
  exact Finset.prod_ne_zero_iff.mpr fun fl hfl => detFl_ne_zero ht h (Finset.mem_range.mp hfl)

theorem weight_eq_detAll (ht : TblOK c.NI c.nf c.tbl) {vs : List Vert} (hv : ∀ v ∈ vs, VertOK c.tbl v) :
    weight c.NI c.nf c.G0 c.tbl vs =
      detAll c.NI c.nf c.G0 c.tbl vs / fAll c.NI c.tbl vs * uWeight c.tbl vs := by
  unfold weight
  rw [detAll_eq ht hv, mul_div_assoc, div_self (fAll_ne_zero ht hv), mul_one]

theorem TryInv.weight_ne_zero (ht : TblOK c.NI c.nf c.tbl) (h : TryInv c s) :
    weight c.NI c.nf c.G0 c.tbl s.verts ≠ 0 := by
  rw [weight_eq_detAll ht h.ok]
  exact mul_ne_zero (div_ne_zero (detAll_ne_zero ht h) (fAll_ne_zero ht h.ok)) (uWeight_ne_zero ht h.ok)

theorem forall₂_trans {a b d : List Vert} (h1 : List.Forall₂ SameVertex a b) (h2 : List.Forall₂ SameVertex b d) :
    List.Forall₂ SameVertex a d := by
  rw [List.forall₂_iff_get] at h1 h2 ⊢
  refine ⟨h1.1.trans h2.1, fun i q2 q3 => ?_⟩
  exact (h1.2 i q2 (h1.1 ▸ q2)).trans (h2.2 i (h1.1 ▸ q2) q3)

/-- Everything but the trial's own bookkeeping is the same in both objects, up to a reordering of the operators of
    the Gamma matrices. -/
structure SameObj (s s' : Sub K) : Prop where
  verts : s'.verts = s.verts
  verts0 : s'.verts0 = s.verts0
  invA : s'.invA = s.invA
  info : ∀ fl, ((s'.gam fl).info).Perm (s.gam fl).info
  signDetA : s'.signDetA = s.signDetA
  sign : s'.sign = s.sign
  uid : s'.uid = s.uid
  trying : s'.trying = s.trying

theorem SameObj.tryInv {s' : Sub K} (e : SameObj s s') (h : TryInv c s)
    (hf : ∀ fl < c.nf, FlavInv c.NI c.G0 (s.invA fl) (s'.gam fl) (s.invA fl).cr.length (c.cur (s.invA fl) s.verts)) :
    TryInv c s' where
  trying := e.trying.trans h.trying
  same := by rw [e.verts, e.verts0]; exact h.same
  uids := by rw [e.verts]; exact h.uids
  uidle := by rw [e.verts, e.uid]; exact h.uidle
  ok0 := by rw [e.verts0]; exact h.ok0
  ok := by rw [e.verts]; exact h.ok
  flav := fun fl hfl => by rw [e.invA, e.verts]; exact hf fl hfl
  rows := fun fl hfl => by rw [e.invA, e.verts0]; exact h.rows fl hfl
  sgnA := by rw [e.signDetA, e.verts]; exact h.sgnA
  sgn := by rw [e.sign, e.verts]; exact h.sgn

/-- A trial: the numbers it returns, what rejecting it restores
    and what accepting it does. -/
theorem trySpinFlip_spec (ht : TblOK c.NI c.nf c.tbl) (h : TryInv c s) (hT : TrialOK c s pos spins)
    {acc : Bool} (hs : ∀ fl < c.nf, FlavorTrial c.NI c.tbl s.verts0 s.verts (pos.zip spins) acc fl)
    (junk : ℕ → ℕ → ℕ → K) :
    ∃ (s' : Sub K) (p : K), Sub.trySpinFlip c pos spins s = .ok (s', p,
        fAll c.NI c.tbl s.verts / fAll c.NI c.tbl (flipAll s.verts (pos.zip spins)),
        uWeight c.tbl (flipAll s.verts (pos.zip spins)) / uWeight c.tbl s.verts) ∧
      ((∀ fl < c.nf, FlavorRatio c.NI c.G0 c.tbl s.verts0 s.verts (pos.zip spins) fl) →
        p = detAll c.NI c.nf c.G0 c.tbl (flipAll s.verts (pos.zip spins)) / detAll c.NI c.nf c.G0 c.tbl s.verts) ∧
      (∃ s'', Sub.rejectSpinFlip c s' = .ok s'' ∧ SameObj s s'' ∧ TryInv c s'' ∧
        ∀ fl, (fl < c.nf → OnlyLeaves c.NI c.tbl s.verts0 s.verts (pos.zip spins) fl ∨
            OnlyReturns c.NI c.tbl s.verts0 s.verts (pos.zip spins) fl) →
          (s''.gam fl).mat = (s.gam fl).mat ∧ (s''.gam fl).info = (s.gam fl).info) ∧
      (acc = true → weight c.NI c.nf c.G0 c.tbl (flipAll s.verts (pos.zip spins)) ≠ 0 →
        ∃ s'', Sub.performSpinFlip c junk pos spins s' = .ok s'' ∧ TryInv c s'' ∧
          s''.verts = flipAll s.verts (pos.zip spins) ∧ s''.verts0 = s.verts0 ∧ s''.invA = s.invA ∧
          s''.uid = s.uid) := by
  set ps := pos.zip spins with hps
  have hok' := flipAll_ok ht h hT
  rw [← hps] at hok'
  have hW := workOK ht h hT
  rw [← hps] at hW
  have hnd : (ps.map Prod.fst).Nodup := by rw [hps, hT.map_fst]; exact hT.nodup
  have hlt : ∀ x ∈ ps, x.1 < s.verts.length := fun x hx => hT.lt _ (List.of_mem_zip hx).1
  -- the work lists
  obtain ⟨w, ew⟩ : ∃ w, w = (Sub.elems c s ps).foldl (Sub.workStep c.NI)
      { (⟨fun _ => [], fun _ => [], fun _ => [], 1, 1⟩ : Sub.Work K) with u := 1 * (ps.map fun x =>
        vU c.tbl (flipTo (s.verts.getD x.1 default) x.2) / vU c.tbl (s.verts.getD x.1 default)).prod } := ⟨_, rfl⟩
  have hwork : Res.foldl (Sub.workVert c s) ⟨fun _ => [], fun _ => [], fun _ => [], 1, 1⟩ ps = .ok w := by
    rw [ew]; exact Sub.work_spec ht hW _
  have hl := fun fl => Sub.step_lists c.NI (Sub.elems c s ps)
    { (⟨fun _ => [], fun _ => [], fun _ => [], 1, 1⟩ : Sub.Work K) with u := 1 * (ps.map fun x =>
        vU c.tbl (flipTo (s.verts.getD x.1 default) x.2) / vU c.tbl (s.verts.getD x.1 default)).prod } fl
  rw [← ew] at hl
  simp only [List.nil_append] at hl
  have hprod : ∀ F : Vert → K, (∀ v, VertOK c.tbl v → F v ≠ 0) →
      (ps.map fun x => F (flipTo (s.verts.getD x.1 default) x.2) / F (s.verts.getD x.1 default)).prod =
        ((flipAll s.verts ps).map F).prod / (s.verts.map F).prod := by
    intro F hF
    have e := prod_flipAll F s.verts hnd hlt
    have n1 : (ps.map fun x => F (s.verts.getD x.1 default)).prod ≠ 0 := by
      apply List.prod_ne_zero
      intro h0
      obtain ⟨x, hx, e0⟩ := List.mem_map.mp h0
      exact hF _ (hW x hx).ok e0
    have n2 : (s.verts.map F).prod ≠ 0 := by
      apply List.prod_ne_zero
      intro h0
      obtain ⟨x, hx, e0⟩ := List.mem_map.mp h0
      exact hF _ (h.ok x hx) e0
    have e2 : (ps.map fun x => F (flipTo (s.verts.getD x.1 default) x.2) / F (s.verts.getD x.1 default)).prod =
        (ps.map fun x => F (flipTo (s.verts.getD x.1 default) x.2)).prod /
          (ps.map fun x => F (s.verts.getD x.1 default)).prod := by
      exact listProd_div ps _ _
    rw [e2, div_eq_div_iff n1 n2, e, mul_comm]
  have hwu : w.u = uWeight c.tbl (flipAll s.verts ps) / uWeight c.tbl s.verts := by
    rw [(hl 0).2.2.2, one_mul, hprod _ fun v hv => vU_ne_zero ht hv, uWeight_eq, uWeight_eq]
  have hwf : w.f = fAll c.NI c.tbl (flipAll s.verts ps) / fAll c.NI c.tbl s.verts := by
    have hok : ∀ x ∈ Sub.elems c s ps, OkAlpha c.NI x.2.cur := by
      intro y hy
      obtain ⟨x, hx, hy⟩ := List.mem_flatMap.mp hy
      obtain ⟨r, hr, rfl⟩ := List.mem_map.mp hy
      exact fieldOf_ok ht (hW x hx).ok (List.mem_range.mp hr)
    have := Sub.step_f c.NI (Sub.elems c s ps) hok
      { (⟨fun _ => [], fun _ => [], fun _ => [], 1, 1⟩ : Sub.Work K) with u := 1 * (ps.map fun x =>
        vU c.tbl (flipTo (s.verts.getD x.1 default) x.2) / vU c.tbl (s.verts.getD x.1 default)).prod }
    rw [← ew] at this
    rw [this, Sub.elems_f]
    show 1 * _ = _
    rw [one_mul, hprod _ fun v hv => vF_ne_zero ht hv]
    rfl
  -- flavors
  have hF := fun fl (hfl : fl < c.nf) =>
    tryFlavor_all ht h hT hfl (hs fl hfl) (hl fl).1 (hl fl).2.1 (hl fl).2.2.1 junk
  rw [← hps] at hF
  choose! g q g1 g0 g2 g3 using hF
  have hloop := loopProd_spec (x := s.gam) g1 (1 : K)
  have hdet : (∀ fl < c.nf, FlavorRatio c.NI c.G0 c.tbl s.verts0 s.verts ps fl) →
      (1 : K) * ∏ fl ∈ Finset.range c.nf, q fl =
      detAll c.NI c.nf c.G0 c.tbl (flipAll s.verts ps) / detAll c.NI c.nf c.G0 c.tbl s.verts := by
    intro hr
    rw [one_mul, detAll_prod, detAll_prod, ← Finset.prod_div_distrib]
    exact Finset.prod_congr rfl fun fl hfl => g0 fl (Finset.mem_range.mp hfl) (hr fl (Finset.mem_range.mp hfl))
  obtain ⟨p, ep⟩ : ∃ p : K, p = (1 : K) * ∏ fl ∈ Finset.range c.nf, q fl := ⟨_, rfl⟩
  rw [← ep] at hloop hdet
  have fne := fAll_ne_zero ht h.ok
  have fne' := fAll_ne_zero ht hok'
  unfold Sub.trySpinFlip
  rw [Res.assert_true h.trying, Res.bind_ok, Res.assert_true hT.len, Res.bind_ok, Res.assert_true hT.lt, Res.bind_ok,
    Res.assert_true hT.nodup, Res.bind_ok, ← hps, hwork]
  simp only [Res.bind_ok]
  rw [hloop]
  simp only [Res.bind_ok, Res.pure_eq]
  obtain ⟨s1, es⟩ : ∃ s1 : Sub K, s1 = { s with
        gam := fun fl => if fl < c.nf then g fl else s.gam fl, rem := w.rem, ins := w.ins, rep := w.rep,
        detRat := p,
        signRat := mysign p * mysign w.u / mysign w.f } := ⟨_, rfl⟩
  rw [← es]
  have f1 : s1.rem = w.rem := by rw [es]
  have f2 : s1.ins = w.ins := by rw [es]
  have f3 : s1.rep = w.rep := by rw [es]
  have f4 : s1.verts = s.verts := by rw [es]
  have f5 : s1.verts0 = s.verts0 := by rw [es]
  have f6 : s1.invA = s.invA := by rw [es]
  have f7 : s1.trying = s.trying := by rw [es]
  have f8 : s1.uid = s.uid := by rw [es]
  have f9 : s1.sign = s.sign := by rw [es]
  have f10 : s1.signDetA = s.signDetA := by rw [es]
  have f11 : s1.gam = fun fl => if fl < c.nf then g fl else s.gam fl := by rw [es]
  have f12 : s1.detRat = p := by rw [es]
  have f13 : s1.signRat = mysign p * mysign w.u / mysign w.f := by rw [es]
  clear es
  refine ⟨s1, p, by rw [hwf, hwu, one_div_div], hdet, ?_, ?_⟩
  · -- rejecting
    unfold Sub.rejectSpinFlip
    rw [Res.assert_true (f7.trans h.trying), Res.bind_ok]
    obtain ⟨y, ey, p1, p2⟩ := forFlavors_spec (nf := c.nf) (f := Sub.rejectFlavor s1) (x := s1.gam)
      (P := fun fl G => FlavInv c.NI c.G0 (s.invA fl) G (s.invA fl).cr.length (c.cur (s.invA fl) s.verts) ∧
        (OnlyLeaves c.NI c.tbl s.verts0 s.verts ps fl ∨ OnlyReturns c.NI c.tbl s.verts0 s.verts ps fl →
          G.mat = (s.gam fl).mat ∧ G.info = (s.gam fl).info))
      (fun fl hfl => by
        obtain ⟨G, e1, e2, e3⟩ := g2 fl hfl s1 (by rw [f1]) (by rw [f2]) (by rw [f3])
        rw [f11]
        simp only [if_pos hfl]
        exact ⟨G, e1, e2, e3⟩)
    rw [ey]
    have hout : ∀ fl, c.nf ≤ fl → y fl = s.gam fl := by
      intro fl hfl
      rw [p2 fl hfl, f11]
      simp only [if_neg (show ¬ fl < c.nf by omega)]
    have hS : SameObj s { s1 with gam := y } := ⟨f4, f5, f6, fun fl => by
      show ((y fl).info).Perm _
      by_cases hfl : fl < c.nf
      · exact InfoOK.perm_of (p1 fl hfl).1.info (h.flav fl hfl).info
      · rw [hout fl (by omega)], f10, f9, f8, f7⟩
    refine ⟨_, rfl, hS, hS.tryInv h fun fl hfl => (p1 fl hfl).1, ?_⟩
    intro fl hfl
    by_cases hlt : fl < c.nf
    · exact (p1 fl hlt).2 (hfl hlt)
    · show (y fl).mat = _ ∧ (y fl).info = _
      rw [hout fl (by omega)]
      exact ⟨rfl, rfl⟩
  · -- accepting
    intro hacc hw
    have hd' : detAll c.NI c.nf c.G0 c.tbl (flipAll s.verts ps) ≠ 0 := by
      intro e
      apply hw
      rw [weight_eq_detAll ht hok', e, zero_div, zero_mul]
    have hdf : ∀ fl < c.nf, detFl c (flipAll s.verts ps) fl ≠ 0 := by
      rw [detAll_prod] at hd'
      intro fl hfl
      exact Finset.prod_ne_zero_iff.mp hd' fl (Finset.mem_range.mpr hfl)
    have hp : p = detAll c.NI c.nf c.G0 c.tbl (flipAll s.verts ps) / detAll c.NI c.nf c.G0 c.tbl s.verts := by
      refine hdet fun fl hfl => ?_
      rcases hs fl hfl with q | q | q
      · exact Or.inl q
      · exact Or.inr (Or.inl q)
      · exact Or.inr (Or.inr (detMid_ne_zero h hfl (forall₂_trans h.same (flipAll_same s.verts ps)) (q.2 hacc)))
    unfold Sub.performSpinFlip
    rw [Res.assert_true (f7.trans h.trying), Res.bind_ok]
    obtain ⟨y, ey, p1, p2⟩ := forFlavors_spec (nf := c.nf) (f := Sub.performFlavor junk s1) (x := s1.gam)
      (P := fun fl G => FlavInv c.NI c.G0 (s.invA fl) G (s.invA fl).cr.length
        (c.cur (s.invA fl) (flipAll s.verts ps)))
      (fun fl hfl => by
        obtain ⟨G, e1, e2⟩ := g3 fl hfl hacc s1 (by rw [f1]) (by rw [f2]) (by rw [f3]) (hdf fl hfl)
        rw [f11]
        simp only [if_pos hfl]
        exact ⟨G, e1, e2⟩)
    rw [ey]
    simp only [Res.bind_ok]
    rw [Res.assert_true (le_of_eq hT.len), Res.bind_ok, ← hps, f4, setSpins_eq hlt]
    simp only [Res.bind_ok, Res.pure_eq]
    refine ⟨_, rfl, ?_, rfl, f5, f6, f8⟩
    have hsame := flipAll_same s.verts ps
    exact {
      trying := f7.trans h.trying
      same := by
        show List.Forall₂ SameVertex s1.verts0 _
        rw [f5]
        exact forall₂_trans h.same hsame
      uids := by
        show ((flipAll s.verts ps).map Vert.uid).Nodup
        rw [Forall₂_uids hsame]; exact h.uids
      uidle := by
        intro v hv
        have : v.uid ∈ (flipAll s.verts ps).map Vert.uid := List.mem_map_of_mem hv
        rw [Forall₂_uids hsame] at this
        obtain ⟨v', hv', e⟩ := List.mem_map.mp this
        rw [← e]
        show v'.uid ≤ s1.uid
        rw [f8]
        exact h.uidle v' hv'
      ok0 := by
        show ∀ v ∈ s1.verts0, _
        rw [f5]; exact h.ok0
      ok := hok'
      flav := by
        show ∀ fl < c.nf, FlavInv c.NI c.G0 (s1.invA fl) (y fl) (s1.invA fl).cr.length
          (c.cur (s1.invA fl) (flipAll s.verts ps))
        rw [f6]; exact p1
      rows := by
        show ∀ fl < c.nf, (s1.invA fl).rowList.Perm (rowsOf c.NI c.tbl s1.verts0 fl)
        rw [f6, f5]; exact h.rows
      sgnA := by
        show s1.signDetA * mysign s1.detRat = mysign _
        rw [f10, f12, hp, h.sgnA, ← mysign_mul, mul_div_cancel₀ _ (detAll_ne_zero ht h)]
      sgn := by
        show s1.sign * s1.signRat = mysign _
        rw [f9, f13, hp, h.sgn, ← mysign_mul, ← mysign_div, ← mysign_mul, hwu, hwf]
        congr 1
        rw [weight_eq_detAll ht h.ok, weight_eq_detAll ht hok']
        have a1 := detAll_ne_zero ht h
        have a2 := uWeight_ne_zero ht h.ok
        field_simp }

/-- A trial that changes a field from one value to another, neither being its batch-start value, throws. -/
theorem trySpinFlip_throws (ht : TblOK c.NI c.nf c.tbl) (h : TryInv c s) (hT : TrialOK c s pos spins)
    (hs : ∃ fl < c.nf, ¬ LeavesOrReturns c.NI c.tbl s.verts0 s.verts (pos.zip spins) fl) :
    Sub.trySpinFlip c pos spins s = .throw .runtimeError := by
  set ps := pos.zip spins with hps
  have hW := workOK ht h hT
  rw [← hps] at hW
  obtain ⟨w, ew⟩ : ∃ w, w = (Sub.elems c s ps).foldl (Sub.workStep c.NI)
      { (⟨fun _ => [], fun _ => [], fun _ => [], 1, 1⟩ : Sub.Work K) with u := 1 * (ps.map fun x =>
        vU c.tbl (flipTo (s.verts.getD x.1 default) x.2) / vU c.tbl (s.verts.getD x.1 default)).prod } := ⟨_, rfl⟩
  have hwork : Res.foldl (Sub.workVert c s) ⟨fun _ => [], fun _ => [], fun _ => [], 1, 1⟩ ps = .ok w := by
    rw [ew]; exact Sub.work_spec ht hW _
  have hl := fun fl => Sub.step_lists c.NI (Sub.elems c s ps)
    { (⟨fun _ => [], fun _ => [], fun _ => [], 1, 1⟩ : Sub.Work K) with u := 1 * (ps.map fun x =>
        vU c.tbl (flipTo (s.verts.getD x.1 default) x.2) / vU c.tbl (s.verts.getD x.1 default)).prod } fl
  rw [← ew] at hl
  simp only [List.nil_append] at hl
  classical
  obtain ⟨hk, hmin⟩ := And.intro (Nat.find_spec hs) (fun m (hm : m < Nat.find hs) => Nat.find_min hs hm)
  set k := Nat.find hs with hkdef
  have hF : ∀ fl < k, ∃ G' q, Sub.tryFlavor c w (s.invA fl) fl (s.gam fl) = .ok (G', q) := by
    intro fl hfl
    have hlt : fl < c.nf := by have := hk.1; omega
    have hLR : LeavesOrReturns c.NI c.tbl s.verts0 s.verts ps fl := by
      by_contra hn
      exact hmin fl hfl ⟨hlt, hn⟩
    obtain ⟨G', q, e, _⟩ := tryFlavor_all ht h hT hlt (acc := false)
      (Or.inr (Or.inr ⟨hLR, fun e => by cases e⟩)) (hl fl).1 (hl fl).2.1 (hl fl).2.2.1 (fun _ _ _ => 0)
    exact ⟨G', q, e⟩
  choose! g q g1 using hF
  have hthrow : Sub.tryFlavor c w (s.invA k) k (s.gam k) = .throw .runtimeError := by
    have hne : w.rep k ≠ [] := by
      intro e
      apply hk.2
      intro x hx r hr hf
      have := List.filter_eq_nil_iff.mp ((hl k).2.2.1 ▸ e) _ (Sub.onFl_elems.mpr ⟨x, hx, r, hr, hf, rfl⟩)
      by_cases q1 : fieldOf c.NI c.tbl (s.verts.getD x.1 default) r = fieldOf c.NI c.tbl (s.verts0.getD x.1 default) r
      · exact Or.inl q1
      · by_cases q2 : fieldOf c.NI c.tbl (flipTo (s.verts.getD x.1 default) x.2) r =
            fieldOf c.NI c.tbl (s.verts0.getD x.1 default) r
        · exact Or.inr (Or.inl q2)
        · right; right
          by_contra q3
          apply this
          exact decide_eq_true ⟨fun e => q1 e.symm, fun e => q2 e.symm, fun e => q3 e.symm⟩
    unfold Sub.tryFlavor
    rw [if_neg (fun q => hne q.2.2), if_neg (fun q => hne q.2.2), if_neg (fun q => hne q.2.2),
      if_neg (fun q => hne q.2.2)]
  have hloop := loopProd_spec (x := s.gam) g1 (1 : K)
  have hsplit : List.range c.nf = List.range k ++ k :: (List.range' (k + 1) (c.nf - k - 1)) := by
    have h1 := hk.1
    rw [List.range_eq_range', List.range_eq_range', ← List.range'_succ]
    have := List.range'_append_1 (s := 0) (m := k) (n := c.nf - k)
    rw [Nat.zero_add] at this
    rw [show c.nf - k - 1 + 1 = c.nf - k by omega, this, show k + (c.nf - k) = c.nf by omega]
  unfold Sub.trySpinFlip
  rw [Res.assert_true h.trying, Res.bind_ok, Res.assert_true hT.len, Res.bind_ok, Res.assert_true hT.lt, Res.bind_ok,
    Res.assert_true hT.nodup, Res.bind_ok, ← hps, hwork]
  simp only [Res.bind_ok]
  rw [hsplit, Res.foldl_append, hloop, Res.bind_ok, Res.foldl_cons]
  simp only [if_neg (show ¬ k < k by omega), hthrow, Res.bind_throw]

end CTInt
