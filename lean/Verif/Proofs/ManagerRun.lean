import Verif.Proofs.ManagerSafe

/-!
# The updates return, and what they return is the ratio of weights
-/

set_option linter.all false

namespace CTInt

variable {K : Type} [RCLike K] [DecidableEq K]
variable {c : Ctx K} {s : Sub K} {a : Abs}

/-- `a'` can be reached from `a` by calls that respect the rules. -/
def Reach (c : Ctx K) (a a' : Abs) : Prop := ∃ calls, AllAdmissible c.NI c.nf c.G0 c.tbl a calls ∧ a' = a.run calls

theorem Reach.refl (a : Abs) : Reach c a a := ⟨[], trivial, rfl⟩

theorem Reach.step {a a' : Abs} (h : Reach c a a') {call : Call} (hc : Admissible c.NI c.nf c.G0 c.tbl a' call) :
    Reach c a (a'.step call) := by
  obtain ⟨calls, h1, rfl⟩ := h
  refine ⟨calls ++ [call], AllAdmissible.append.mpr ⟨h1, hc, trivial⟩, ?_⟩
  rw [Abs.run_append]; rfl

theorem Reach.trans {a a' a'' : Abs} (h : Reach c a a') (h' : Reach c a' a'') : Reach c a a'' := by
  obtain ⟨l, h1, rfl⟩ := h
  obtain ⟨l', h2, rfl⟩ := h'
  exact ⟨l ++ l', AllAdmissible.append.mpr ⟨h1, h2⟩, (Abs.run_append ..).symm⟩

theorem Means.vertOK (h : Means c s a) : ∀ v ∈ a.cfg, VertOK c.tbl v := by
  rw [← h.cfg]
  cases ho : a.isOpen
  · exact (h.cl ho).ok
  · exact (h.op ho).2.ok

theorem Means.weight_ne_zero (ht : TblOK c.NI c.nf c.tbl) (h : Means c s a) : weight c.NI c.nf c.G0 c.tbl a.cfg ≠ 0 := by
  rw [← h.cfg]
  cases ho : a.isOpen
  · exact ready_weight_ne_zero ht (h.cl ho)
  · exact (h.op ho).2.weight_ne_zero ht

theorem Means.all_int (h : Means c s a) (ho : a.isOpen = false) : ∀ v ∈ a.cfg, v.nonInt = false := by
  rw [← h.cfg]; exact (h.cl ho).int

/-- What the decision returns. -/
noncomputable def decision (r : ℝ) (R : K) (corr : ℝ) : Option K :=
  open Classical in if r < ‖R * (corr : K)‖ then some R else none

theorem decision_some {r : ℝ} {R x : K} {corr : ℝ} (h : decision r R corr = some x) : x = R ∧ r < ‖R * (corr : K)‖ := by
  unfold decision at h
  split at h
  · exact ⟨by injection h with h; exact h.symm, by assumption⟩
  · cases h

theorem metropolis_spec (ht : TblOK c.NI c.nf c.tbl) (h : Means c s a) (hop : a.isOpen = true) {pos : List ℕ}
    {spins : List ℤ} (hw : WellFormed c.tbl a.cfg pos spins)
    (htr : ∀ fl < c.nf, OnlyLeaves c.NI c.tbl a.base a.cfg (pos.zip spins) fl ∨
      OnlyReturns c.NI c.tbl a.base a.cfg (pos.zip spins) fl) {r : ℝ} (hr : 0 ≤ r) (corr : ℝ) (junk : ℕ → ℕ → ℕ → K) :
    ∃ s' o, metropolis c junk s pos spins corr r = .ok (s', o,
        uWeight c.tbl (flipAll a.cfg (pos.zip spins)) / uWeight c.tbl a.cfg) ∧
      o = decision r (weight c.NI c.nf c.G0 c.tbl (flipAll a.cfg (pos.zip spins)) / weight c.NI c.nf c.G0 c.tbl a.cfg) corr ∧
      Means c s' (a.step (.flip pos spins o.isSome)) ∧
      Admissible c.NI c.nf c.G0 c.tbl a (.flip pos spins o.isSome) := by
  obtain ⟨hb, hI⟩ := h.op hop
  have hadm : ∀ acc : Bool, (acc = true → weight c.NI c.nf c.G0 c.tbl (flipAll a.cfg (pos.zip spins)) ≠ 0) →
      Admissible c.NI c.nf c.G0 c.tbl a (.flip pos spins acc) := by
    intro acc hacc
    exact ⟨hop, hw, fun fl hfl => (htr fl hfl).elim Or.inl fun q => Or.inr (Or.inl q), hacc⟩
  have hw' : WellFormed c.tbl s.verts pos spins := by rw [h.cfg]; exact hw
  have htr' : ∀ fl < c.nf, FlavorTrial c.NI c.tbl s.verts0 s.verts (pos.zip spins) true fl := by
    intro fl hfl; rw [h.cfg, hb]; exact (htr fl hfl).elim Or.inl fun q => Or.inr (Or.inl q)
  obtain ⟨s1, p, e1, ep, -⟩ := trySpinFlip_spec ht hI hw'.trialOK htr' junk
  have ep := ep (fun fl hfl => by rw [h.cfg, hb]; exact (htr fl hfl).elim Or.inl fun q => Or.inr (Or.inl q))
  have hok := flipAll_ok ht hI hw'.trialOK
  have hR : p * (fAll c.NI c.tbl s.verts / fAll c.NI c.tbl (flipAll s.verts (pos.zip spins))) *
      (uWeight c.tbl (flipAll s.verts (pos.zip spins)) / uWeight c.tbl s.verts) =
      weight c.NI c.nf c.G0 c.tbl (flipAll a.cfg (pos.zip spins)) / weight c.NI c.nf c.G0 c.tbl a.cfg := by
    rw [ep, ← h.cfg, weight_eq_detAll ht hok, weight_eq_detAll ht hI.ok]
    have h1 := detAll_ne_zero ht hI
    have h2 := fAll_ne_zero ht hI.ok
    have h3 := fAll_ne_zero ht hok
    have h4 := uWeight_ne_zero ht hI.ok
    field_simp
  unfold metropolis
  rw [e1]
  simp only [Res.bind_ok, hR]
  rw [h.cfg]
  set R := weight c.NI c.nf c.G0 c.tbl (flipAll a.cfg (pos.zip spins)) / weight c.NI c.nf c.G0 c.tbl a.cfg with hRdef
  by_cases hlt : r < ‖R * (corr : K)‖
  · have hne : weight c.NI c.nf c.G0 c.tbl (flipAll a.cfg (pos.zip spins)) ≠ 0 := by
      intro h0
      rw [hRdef, h0] at hlt
      simp at hlt
      linarith
    obtain ⟨s', e', m'⟩ := step_spec ht h (hadm true fun _ => hne) (fun _ => junk)
    unfold Sub.call at e'
    simp only [e1] at e'
    have e' : Sub.performSpinFlip c junk pos spins s1 = .ok s' := e'
    have hd : decision r R corr = some R := by unfold decision; rw [if_pos hlt]
    refine ⟨s', some R, ?_, hd.symm, m', hadm true fun _ => hne⟩
    rw [if_pos hlt, e']; rfl
  · obtain ⟨s', e', m'⟩ := step_spec ht h (hadm false fun q => by cases q) (fun _ => junk)
    unfold Sub.call at e'
    simp only [e1] at e'
    have e' : Sub.rejectSpinFlip c s1 = .ok s' := e'
    have hd : decision r R corr = none := by unfold decision; rw [if_neg hlt]
    refine ⟨s', none, ?_, hd.symm, m', hadm false fun q => by cases q⟩
    rw [if_neg hlt, e']; rfl

/-! ## Vertex by vertex -/

theorem getD_modify (l : List Vert) (i j : ℕ) (f : Vert → Vert) (hi : i < l.length) :
    (l.modify i f).getD j default = if i = j then f (l.getD j default) else l.getD j default := by
  rw [List.getD_eq_getElem?_getD, List.getD_eq_getElem?_getD, List.getElem?_modify]
  by_cases h : i = j
  · subst h
    simp [hi]
  · simp [h]

theorem onlyLeaves_of_eq {NI : K} {tbl : List (VDef K)} {base cfg : List Vert} {ps : List (ℕ × ℤ)}
    (h : ∀ x ∈ ps, cfg.getD x.1 default = base.getD x.1 default) (fl : ℕ) : OnlyLeaves NI tbl base cfg ps fl := by
  intro x hx r _ _
  left; rw [h x hx]

theorem onlyReturns_hide {NI : K} {tbl : List (VDef K)} {base cfg : List Vert} {i : ℕ}
    (h : (base.getD i default).nonInt = true) (fl : ℕ) : OnlyReturns NI tbl base cfg [(i, -1)] fl := by
  intro x hx r _ _
  rw [List.mem_singleton] at hx
  subst hx
  left
  unfold fieldOf
  rw [if_pos h, if_pos (show (flipTo (cfg.getD i default) (-1)).nonInt = true from rfl)]

/-- What `finish` needs of the interaction, and what drawing a state needs: every term acts on every flavor and has a
    state. -/
def FullTerms (c : Ctx K) : Prop :=
  ∀ d ∈ c.tbl, 0 < d.numAf ∧ ∀ fl < c.nf, ∃ r < d.rank, d.flavors.getD r 0 = fl

theorem finish_spec (ht : TblOK c.NI c.nf c.tbl) (hf : FullTerms c) (h : Means c s a) (hop : a.isOpen = true)
    (j1 j2 j3 : ℕ → ℕ → ℕ → K) :
    ∃ s', s.finalizeUpdate c j1 j2 j3 = .ok s' ∧ Means c s' (a.step .finish) ∧
      Admissible c.NI c.nf c.G0 c.tbl a .finish := by
  have had : Admissible c.NI c.nf c.G0 c.tbl a .finish := by
    refine ⟨hop, fun v hv _ fl hfl => ?_⟩
    exact (hf _ (termOf_mem (h.vertOK v hv).1)).2 fl hfl
  obtain ⟨s', e, m⟩ := step_spec ht h had (fun k => if k = 0 then j1 else if k = 1 then j2 else j3)
  exact ⟨s', e, m, had⟩

theorem start_spec (ht : TblOK c.NI c.nf c.tbl) (h : Means c s a) (hop : a.isOpen = false) {new : List Vert}
    (hn : ∀ v ∈ new, v.type < c.tbl.length) (j1 j2 j3 : ℕ → ℕ → ℕ → K) :
    ∃ s', s.initUpdate c j1 j2 j3 new = .ok s' ∧ Means c s' (a.step (.start new)) ∧
      Admissible c.NI c.nf c.G0 c.tbl a (.start new) := by
  obtain ⟨s', e, m⟩ := step_spec ht h (call := .start new) ⟨hop, hn⟩
    (fun k => if k = 0 then j1 else if k = 1 then j2 else j3)
  exact ⟨s', e, m, hop, hn⟩

theorem weight_congr_int {vs vs' : List Vert} (h : interacting vs = interacting vs') :
    weight c.NI c.nf c.G0 c.tbl vs = weight c.NI c.nf c.G0 c.tbl vs' := by
  unfold weight detWeight uWeight
  rw [h]

theorem weight_start (vs new : List Vert) (k : ℕ) :
    weight c.NI c.nf c.G0 c.tbl (vs ++ fresh k new) = weight c.NI c.nf c.G0 c.tbl vs :=
  weight_congr_int (by rw [interacting_append, interacting_fresh, List.append_nil])

theorem weight_finish (vs : List Vert) :
    weight c.NI c.nf c.G0 c.tbl (interacting vs) = weight c.NI c.nf c.G0 c.tbl vs :=
  weight_congr_int (interacting_idem vs)

theorem floor_mul_lt {x : ℝ} (hx : 0 ≤ x ∧ x < 1) {n : ℕ} (hn : 0 < n) : ⌊x * n⌋₊ < n := by
  have hn' : (0 : ℝ) < n := by exact_mod_cast hn
  rw [Nat.floor_lt (mul_nonneg hx.1 hn'.le)]
  nlinarith [hx.2]

/-! ## Drawing the vertices -/

/-- A vertex that may be inserted. -/
structure Insertable (beta : ℝ) (tbl : List (VDef K)) (v : Vert) : Prop where
  type : v.type < tbl.length
  af0 : 0 ≤ v.af
  af1 : v.af < (termOf tbl v).numAf
  rank : v.rank = (termOf tbl v).rank
  dens : v.isDensity = (termOf tbl v).isDensity
  time : ∃ x : ℝ, 0 ≤ x ∧ x < 1 ∧ v.time = x * beta

theorem genVertex_spec (hf : FullTerms c) {beta : ℝ} {kIns maxOrder : ℕ} {sz : ℝ} {u : ℕ → ℝ}
    (hu : ∀ k, 0 ≤ u k ∧ u k < 1) (p : ℕ) :
    ∃ l p', (Mgr.create beta kIns maxOrder sz c.tbl).genVertex c.tbl u p = .ok (l, p') ∧
      l.length = (if c.tbl.length = 0 then 0 else 1) ∧ ∀ v ∈ l, Insertable beta c.tbl v := by
  unfold Mgr.genVertex Mgr.create
  simp only [List.length_range]
  by_cases h0 : c.tbl.length = 0
  · rw [if_pos h0, if_pos h0]
    exact ⟨_, _, rfl, rfl, by simp⟩
  · rw [if_neg h0, if_neg h0]
    have h1 := floor_mul_lt (hu (p + 1)) (Nat.pos_of_ne_zero h0)
    have e1 : Res.get (List.range c.tbl.length) ⌊u (p + 1) * c.tbl.length⌋₊ = .ok ⌊u (p + 1) * c.tbl.length⌋₊ := by
      rw [Res.get_eq_ok, List.getElem?_range h1]
    rw [e1]
    simp only [Res.bind_ok]
    rw [Res.get_of_lt h1]
    simp only [Res.bind_ok]
    refine ⟨_, _, rfl, rfl, ?_⟩
    intro v hv
    rw [List.mem_singleton] at hv
    have ht : termOf c.tbl v = c.tbl[⌊u (p + 1) * c.tbl.length⌋₊] := by
      unfold termOf
      rw [hv]
      exact List.getD_eq_getElem _ _ h1
    have hn := (hf _ (List.getElem_mem h1)).1
    have h2 := floor_mul_lt (hu (p + 2)) hn
    refine ⟨by rw [hv]; exact h1, by rw [hv]; positivity, ?_, ?_, ?_, u p, (hu p).1, (hu p).2, by rw [hv]⟩
    · rw [ht, hv]
      show ((⌊u (p + 2) * _⌋₊ : ℕ) : ℤ) < _
      exact_mod_cast h2
    · rw [ht, hv]
    · rw [ht, hv]

/-- 0 if there are no interaction terms, 1 otherwise: the number of vertices drawn per insertion. -/
abbrev perIns (c : Ctx K) : ℕ := if c.tbl.length = 0 then 0 else 1

theorem genAll_spec (hf : FullTerms c) {beta : ℝ} {kIns maxOrder : ℕ} {sz : ℝ} {u : ℕ → ℝ}
    (hu : ∀ k, 0 ≤ u k ∧ u k < 1) (Nv0 n p : ℕ) :
    ∃ g, (Mgr.create beta kIns maxOrder sz c.tbl).genAll c.tbl u Nv0 n p = .ok g ∧
      g.new.length = perIns c * n ∧ (∀ v ∈ g.new, Insertable beta c.tbl v) ∧
      g.pos = (List.range n).map (fun i => Nv0 + perIns c * i) ∧ g.num = List.replicate n (perIns c) ∧
      g.b = Nv0 + perIns c * n := by
  unfold Mgr.genAll
  induction n with
  | zero => exact ⟨_, rfl, by simp⟩
  | succ n ih =>
    obtain ⟨g, e, h1, h2, h3, h4, h5⟩ := ih
    rw [List.range_succ, Res.foldl_append, e]
    obtain ⟨l, p', e', l1, l2⟩ := genVertex_spec (beta := beta) (kIns := kIns) (maxOrder := maxOrder) (sz := sz) hf hu g.p
    simp only [Res.bind_ok, Res.foldl_cons, Res.foldl_nil, e']
    refine ⟨_, rfl, ?_, ?_, ?_, ?_, ?_⟩
    · simp only [List.length_append, h1, l1]; ring
    · intro v hv
      rcases List.mem_append.mp hv with hv | hv
      · exact h2 v hv
      · exact l2 v hv
    · simp only [h3, h5, List.map_append, List.map_cons, List.map_nil]
    · simp only [h4, l1]
      rw [List.replicate_succ']
    · simp only [h5, l1]; ring

/-! ## Candidates for removal -/

theorem candidates_spec {beta : ℝ} {kIns maxOrder : ℕ} {sz : ℝ} {vs : List Vert} (hv : ∀ v ∈ vs, v.type < c.tbl.length) :
    (Mgr.create beta kIns maxOrder sz c.tbl).candidates vs =
      .ok ((List.range vs.length).filter fun i => !(vs.getD i default).nonInt) := by
  unfold Mgr.candidates
  have : ∀ n ≤ vs.length, Res.foldl (fun l i => do
      let v := vs.getD i default
      if v.nonInt then pure l
      else do
        let b ← Res.get (Mgr.create beta kIns maxOrder sz c.tbl).flag v.type
        pure (if b then l ++ [i] else l)) [] (List.range n) =
      .ok ((List.range n).filter fun i => !(vs.getD i default).nonInt) := by
    intro n hn
    induction n with
    | zero => rfl
    | succ n ih =>
      rw [List.range_succ, Res.foldl_append, ih (by omega), List.filter_append]
      simp only [Res.bind_ok, Res.foldl_cons, Res.foldl_nil, List.filter_cons, List.filter_nil]
      cases hn : (vs.getD n default).nonInt
      · have ht : (vs.getD n default).type < c.tbl.length := by
          rw [List.getD_eq_getElem _ _ (by omega)]; exact hv _ (List.getElem_mem _)
        have e : Res.get (Mgr.create beta kIns maxOrder sz c.tbl).flag (vs.getD n default).type = .ok true := by
          rw [Res.get_eq_ok]
          show (List.replicate c.tbl.length true)[_]? = _
          rw [List.getElem?_replicate, if_pos ht]
        rw [e]
        rfl
      · simp
  exact this _ le_rfl

theorem interacting_range (vs : List Vert) :
    ((List.range vs.length).filter fun i => !(vs.getD i default).nonInt).length = (interacting vs).length := by
  induction vs using List.reverseRecOn with
  | nil => rfl
  | append_singleton vs v ih =>
    rw [List.length_append, List.length_singleton, List.range_succ, List.filter_append, List.length_append,
      interacting_append, List.length_append, ← ih]
    congr 1
    · congr 1
      apply List.filter_congr
      intro i hi
      rw [List.mem_range] at hi
      rw [List.getD_append _ _ _ _ hi]
    · have : (vs ++ [v]).getD vs.length default = v := by
        rw [List.getD_eq_getElem _ _ (by simp)]; simp
      rw [List.filter_cons, this, interacting_cons]
      cases v.nonInt <;> simp [interacting]

/-! ## Insertion and removal -/

/-- The invariant of the loop of `do_ins_rem_update`: `n0` vertices at the start of the batch, `q` insertions used. -/
structure InsInv (c : Ctx K) (a0 : Abs) (w0 : K) (n0 : ℕ) (x : Mgr.InsRem K) (a : Abs) : Prop where
  means : Means c x.s a
  op : a.isOpen = true
  reach : Reach c a0 a
  len : a.base.length = a.cfg.length
  old : ∀ i < n0, (a.base.getD i default).nonInt = false
  new : ∀ i, n0 ≤ i → i < a.cfg.length → (a.base.getD i default).nonInt = true
  afs : ∀ i, n0 ≤ i → i < a.cfg.length → 0 ≤ (a.base.getD i default).af ∧
    (a.base.getD i default).af < (termOf c.tbl (a.base.getD i default)).numAf
  away : ∀ i < a.cfg.length, a.cfg.getD i default = a.base.getD i default ∨ (a.cfg.getD i default).nonInt = true ∨
    (a.base.getD i default).nonInt = true
  rest : ∀ i, n0 + perIns c * x.ins ≤ i → i < a.cfg.length → a.cfg.getD i default = a.base.getD i default
  w : x.w * w0 = weight c.NI c.nf c.G0 c.tbl a.cfg

theorem flip_one (a : Abs) (i : ℕ) (z : ℤ) : a.step (.flip [i] [z] true) = { a with cfg := a.cfg.modify i (flipTo · z) } := rfl

/-- One accepted or rejected flip of one vertex. -/
theorem flip_one_spec (ht : TblOK c.NI c.nf c.tbl) (h : Means c s a) (hop : a.isOpen = true) {i : ℕ} {z : ℤ}
    (hi : i < a.cfg.length) (hz : z = -1 ∨ 0 ≤ z ∧ z < (termOf c.tbl (a.cfg.getD i default)).numAf)
    (htr : a.cfg.getD i default = a.base.getD i default ∨ z = -1 ∧ (a.base.getD i default).nonInt = true)
    {r : ℝ} (hr : 0 ≤ r) (corr : ℝ) (junk : ℕ → ℕ → ℕ → K) :
    ∃ s' o, metropolis c junk s [i] [z] corr r = .ok (s', o,
        uWeight c.tbl (a.cfg.modify i (flipTo · z)) / uWeight c.tbl a.cfg) ∧
      o = decision r (weight c.NI c.nf c.G0 c.tbl (a.cfg.modify i (flipTo · z)) / weight c.NI c.nf c.G0 c.tbl a.cfg) corr ∧
      Means c s' { a with cfg := if o.isSome then a.cfg.modify i (flipTo · z) else a.cfg } ∧
      Reach c a { a with cfg := if o.isSome then a.cfg.modify i (flipTo · z) else a.cfg } := by
  obtain ⟨s', o, e1, e2, e3, e4⟩ := metropolis_spec ht h hop (pos := [i]) (spins := [z])
    ⟨rfl, by simp, by simpa using hi, by intro x hx; rw [List.zip_cons_cons, List.zip_nil_right, List.mem_singleton] at hx; rw [hx]; exact hz⟩
    (fun fl _ => by
      rcases htr with q | ⟨rfl, q⟩
      · left; exact onlyLeaves_of_eq (by intro x hx; rw [List.zip_cons_cons, List.zip_nil_right, List.mem_singleton] at hx; rw [hx]; exact q) fl
      · right; exact onlyReturns_hide q fl) hr corr junk
  refine ⟨s', o, e1, e2, ?_⟩
  have hst : a.step (.flip [i] [z] o.isSome) = { a with cfg := if o.isSome then a.cfg.modify i (flipTo · z) else a.cfg } := by
    cases o.isSome <;> rfl
  rw [← hst]
  exact ⟨e3, (Reach.refl a).step e4⟩

/-- The invariant after a flip of vertex `i`. -/
theorem InsInv.flip (ht : TblOK c.NI c.nf c.tbl) {a0 : Abs} {w0 : K} {n0 : ℕ} {x : Mgr.InsRem K} (h : InsInv c a0 w0 n0 x a)
    {i : ℕ} {z : ℤ} (hi : i < a.cfg.length) {s' : Sub K} {o : Option K} {r corr : ℝ}
    (hz : z = -1 ∨ (a.base.getD i default).nonInt = true)
    (ho : o = decision r (weight c.NI c.nf c.G0 c.tbl (a.cfg.modify i (flipTo · z)) / weight c.NI c.nf c.G0 c.tbl a.cfg) corr)
    (hm : Means c s' { a with cfg := if o.isSome then a.cfg.modify i (flipTo · z) else a.cfg })
    (hrch : Reach c a { a with cfg := if o.isSome then a.cfg.modify i (flipTo · z) else a.cfg })
    {ins : ℕ} (hins : x.ins ≤ ins) (hlt : i < n0 + perIns c * ins ∨ o = none) (st : AccStat) (p : ℕ) (tr : List (Option K)) :
    InsInv c a0 w0 n0 ⟨s', ins, x.w * o.getD 1, st, p, tr⟩
      { a with cfg := if o.isSome then a.cfg.modify i (flipTo · z) else a.cfg } := by
  have hpi : perIns c * x.ins ≤ perIns c * ins := Nat.mul_le_mul_left _ hins
  cases o with
  | none =>
    simp only [Option.isSome_none, Bool.false_eq_true, if_false] at hm hrch ⊢
    exact ⟨hm, h.op, h.reach, h.len, h.old, h.new, h.afs, h.away,
      fun j hj1 hj2 => h.rest j (by have : n0 + perIns c * ins ≤ j := hj1; omega) hj2, by
      show x.w * 1 * w0 = _
      rw [mul_one]; exact h.w⟩
  | some y =>
    have hy := (decision_some ho.symm).1
    simp only [Option.isSome_some, if_true] at hm hrch ⊢
    have hlt : i < n0 + perIns c * ins := hlt.resolve_right (by simp)
    refine ⟨hm, h.op, h.reach.trans hrch, ?_, h.old, ?_, ?_, ?_, ?_, ?_⟩
    · show a.base.length = (a.cfg.modify i _).length
      rw [List.length_modify]; exact h.len
    · intro j h1 h2
      have h2 : j < (a.cfg.modify i _).length := h2
      rw [List.length_modify] at h2
      exact h.new j h1 h2
    · intro j h1 h2
      have h2 : j < (a.cfg.modify i _).length := h2
      rw [List.length_modify] at h2
      exact h.afs j h1 h2
    · intro j h2
      have h2 : j < (a.cfg.modify i _).length := h2
      rw [List.length_modify] at h2
      show (a.cfg.modify i _).getD j default = _ ∨ ((a.cfg.modify i _).getD j default).nonInt = true ∨ _
      rw [getD_modify _ _ _ _ hi]
      split
      · rename_i hij
        subst hij
        right
        rcases hz with rfl | hz
        · left; rfl
        · right; exact hz
      · exact h.away j h2
    · intro j h1 h2
      have h1 : n0 + perIns c * ins ≤ j := h1
      have h2 : j < (a.cfg.modify i _).length := h2
      rw [List.length_modify] at h2
      show (a.cfg.modify i _).getD j default = _
      rw [getD_modify _ _ _ _ hi, if_neg (by omega)]
      exact h.rest j (by omega) h2
    · show x.w * y * w0 = weight c.NI c.nf c.G0 c.tbl (a.cfg.modify i (flipTo · z))
      have hne := h.means.weight_ne_zero ht
      rw [hy, mul_right_comm, h.w]
      field_simp

theorem insRemTurn_spec (ht : TblOK c.NI c.nf c.tbl) {beta : ℝ} {kIns maxOrder : ℕ} {sz : ℝ}
    {m : Mgr} (hm : m = Mgr.create beta kIns maxOrder sz c.tbl) {u : ℕ → ℝ} (hu : ∀ k, 0 ≤ u k ∧ u k < 1)
    {a0 : Abs} {w0 : K} {n0 N : ℕ} {x : Mgr.InsRem K} (h : InsInv c a0 w0 n0 x a)
    (hN : a.cfg.length = n0 + perIns c * N) {tryIns : List Bool} {i : ℕ} {b : Bool} (hb : tryIns[i]? = some b)
    (hx : b = true → x.ins < N) (J : ℕ → ℕ → ℕ → ℕ → ℕ → K) (Us : ℝ) :
    ∃ x' a', m.insRemTurn c J u Us ((List.range N).map fun i => n0 + perIns c * i) (List.replicate N (perIns c)) tryIns x i = .ok x' ∧
      InsInv c a0 w0 n0 x' a' ∧ a'.cfg.length = n0 + perIns c * N ∧ x'.ins = x.ins + (if b then 1 else 0) := by
  have hlen : x.s.verts = a.cfg := h.means.cfg
  unfold Mgr.insRemTurn
  rw [Res.get_eq_ok.mpr hb]
  simp only [Res.bind_ok]
  cases b with
  | true =>
    have hxN := hx rfl
    rw [if_pos rfl]
    rw [Res.get_eq_ok.mpr (show ((List.range N).map fun i => n0 + perIns c * i)[x.ins]? = some (n0 + perIns c * x.ins) by
      rw [List.getElem?_map, List.getElem?_range hxN]; rfl)]
    rw [Res.get_eq_ok.mpr (show (List.replicate N (perIns c))[x.ins]? = some (perIns c) by
      rw [List.getElem?_replicate, if_pos hxN])]
    simp only [Res.bind_ok]
    have hmul : perIns c * x.ins + perIns c ≤ perIns c * N := by
      calc perIns c * x.ins + perIns c = perIns c * (x.ins + 1) := by ring
        _ ≤ _ := Nat.mul_le_mul_left _ hxN
    split
    · -- above the maximal order
      refine ⟨_, a, rfl, ?_, hN, rfl⟩
      refine ⟨h.means, h.op, h.reach, h.len, h.old, h.new, h.afs, h.away, ?_, ?_⟩
      · intro j h1 h2
        have h1 : n0 + perIns c * (x.ins + 1) ≤ j := h1
        have : perIns c * x.ins ≤ perIns c * (x.ins + 1) := Nat.mul_le_mul_left _ (by omega)
        exact h.rest j (by omega) h2
      · show x.w * 1 * w0 = _
        rw [mul_one]; exact h.w
    · unfold Mgr.insertionStep
      rw [Res.assert_true (by rw [hlen]; omega)]
      simp only [Res.bind_ok]
      by_cases h0 : perIns c = 0
      · rw [if_pos h0]
        refine ⟨_, a, rfl, ?_, hN, rfl⟩
        refine ⟨h.means, h.op, h.reach, h.len, h.old, h.new, h.afs, h.away, ?_, ?_⟩
        · intro j h1 h2
          have h1 : n0 + perIns c * (x.ins + 1) ≤ j := h1
          have : perIns c * x.ins ≤ perIns c * (x.ins + 1) := Nat.mul_le_mul_left _ (by omega)
          exact h.rest j (by omega) h2
        · show x.w * 1 * w0 = _
          rw [mul_one]; exact h.w
      · rw [if_neg h0]
        have h1 : perIns c = 1 := by unfold perIns at h0 ⊢; split at h0 <;> simp_all
        rw [h1] at hN hmul ⊢
        simp only [one_mul] at hN hmul ⊢
        have hil : n0 + x.ins < a.cfg.length := by omega
        have heq : a.cfg.getD (n0 + x.ins) default = a.base.getD (n0 + x.ins) default :=
          h.rest _ (by rw [h1, one_mul]) hil
        have hni := h.new (n0 + x.ins) (by omega) hil
        obtain ⟨f0, f1⟩ := h.afs (n0 + x.ins) (by omega) hil
        simp only [List.range_one, List.map_cons, List.map_nil, Nat.zero_add]
        rw [hlen, Res.assert_true (by intro j hj; rw [List.mem_singleton] at hj; rw [hj, heq]; exact hni)]
        simp only [Res.bind_ok, if_true]
        have hcand : ∃ corr, m.corrIns a.cfg = .ok corr := by
          unfold Mgr.corrIns
          rw [hm, candidates_spec (fun v hv => (h.means.vertOK v hv).1)]
          exact ⟨_, rfl⟩
        obtain ⟨corr, ec⟩ := hcand
        rw [ec]
        simp only [Res.bind_ok]
        obtain ⟨s', o, e1, e2, e3, e4⟩ := flip_one_spec ht h.means h.op hil (z := (a.cfg.getD (n0 + x.ins) default).af)
          (by right; rw [heq]; exact ⟨f0, f1⟩) (Or.inl heq) (hu x.p).1 (corr * Us ^ 1) (J (i + 2) 0)
        rw [e1]
        simp only [Res.bind_ok]
        refine ⟨_, _, rfl, h.flip ht hil (Or.inr hni) e2 e3 e4 (ins := x.ins + 1) (by omega) (Or.inl (by rw [h1]; omega)) _ _ _, ?_, rfl⟩
        simp only []
        split
        · rw [List.length_modify]; exact hN
        · exact hN
  | false =>
    rw [if_neg (by simp)]
    unfold Mgr.removalStep Mgr.pickRemoval
    rw [hlen, hm, candidates_spec (fun v hv => (h.means.vertOK v hv).1)]
    simp only [Res.bind_ok]
    set cand := (List.range a.cfg.length).filter fun i => !(a.cfg.getD i default).nonInt with hcand
    by_cases hc0 : cand.length = 0
    · rw [if_pos hc0]
      refine ⟨_, a, rfl, ?_, hN, rfl⟩
      refine ⟨h.means, h.op, h.reach, h.len, h.old, h.new, h.afs, h.away, fun j h1 h2 => h.rest j h1 h2, ?_⟩
      show x.w * 1 * w0 = _
      rw [mul_one]; exact h.w
    · rw [if_neg hc0]
      have hfl : ⌊(cand.length : ℝ) * u x.p⌋₊ < cand.length := by
        rw [mul_comm]; exact floor_mul_lt (hu x.p) (Nat.pos_of_ne_zero hc0)
      rw [Res.get_of_lt hfl]
      obtain ⟨k, hk⟩ : ∃ k, k = cand[⌊(cand.length : ℝ) * u x.p⌋₊] := ⟨_, rfl⟩
      have hkm : k ∈ cand := hk ▸ List.getElem_mem _
      rw [← hk]
      rw [hcand, List.mem_filter, List.mem_range] at hkm
      obtain ⟨hkl, hkn⟩ := hkm
      have hkn : (a.cfg.getD k default).nonInt = false := by simpa using hkn
      simp only [Res.bind_ok, Res.pure_eq]
      rw [Res.assert_true hkn]
      simp only [Res.bind_ok]
      have haway : a.cfg.getD k default = a.base.getD k default ∨ (-1 : ℤ) = -1 ∧ (a.base.getD k default).nonInt = true := by
        rcases h.away k hkl with q | q | q
        · exact Or.inl q
        · rw [hkn] at q; cases q
        · exact Or.inr ⟨rfl, q⟩
      obtain ⟨s', o, e1, e2, e3, e4⟩ := flip_one_spec ht h.means h.op hkl (z := -1) (Or.inl rfl) haway (hu (x.p + 1)).1
        (cand.length / ((Mgr.create beta kIns maxOrder sz c.tbl).beta * (Mgr.create beta kIns maxOrder sz c.tbl).sv.length) * Us⁻¹) (J (i + 2) 0)
      rw [e1]
      simp only [Res.bind_ok]
      have hlt : k < n0 + perIns c * x.ins ∨ o = none := by
        left
        by_contra hge
        have := h.rest k (by omega) hkl
        have h2 := h.new k (by omega) hkl
        rw [← this, hkn] at h2
        cases h2
      refine ⟨_, _, rfl, h.flip ht hkl (Or.inl rfl) e2 e3 e4 le_rfl hlt _ _ _, ?_, rfl⟩
      simp only []
      split
      · rw [List.length_modify]; exact hN
      · exact hN

theorem insRemLoop_spec (ht : TblOK c.NI c.nf c.tbl) {beta : ℝ} {kIns maxOrder : ℕ} {sz : ℝ}
    {m : Mgr} (hm : m = Mgr.create beta kIns maxOrder sz c.tbl) {u : ℕ → ℝ} (hu : ∀ k, 0 ≤ u k ∧ u k < 1)
    {a0 : Abs} {w0 : K} {n0 N : ℕ} {x : Mgr.InsRem K} (h : InsInv c a0 w0 n0 x a) (hx0 : x.ins = 0)
    (hN : a.cfg.length = n0 + perIns c * N) {tryIns : List Bool} (hc : tryIns.count true = N)
    (J : ℕ → ℕ → ℕ → ℕ → ℕ → K) (Us : ℝ) :
    ∃ x' a', Res.foldl (m.insRemTurn c J u Us ((List.range N).map fun i => n0 + perIns c * i) (List.replicate N (perIns c)) tryIns) x
        (List.range tryIns.length) = .ok x' ∧
      InsInv c a0 w0 n0 x' a' ∧ x'.ins = N := by
  have key : ∀ n ≤ tryIns.length, ∃ x' a', Res.foldl (m.insRemTurn c J u Us ((List.range N).map fun i => n0 + perIns c * i)
        (List.replicate N (perIns c)) tryIns) x (List.range n) = .ok x' ∧
      InsInv c a0 w0 n0 x' a' ∧ a'.cfg.length = n0 + perIns c * N ∧ x'.ins = (tryIns.take n).count true := by
    intro n hn
    induction n with
    | zero => exact ⟨x, a, rfl, h, hN, by simpa using hx0⟩
    | succ n ih =>
      obtain ⟨x1, a1, e1, i1, l1, n1⟩ := ih (by omega)
      have hg : tryIns[n]? = some tryIns[n] := List.getElem?_eq_getElem (by omega)
      have htake : tryIns.take (n + 1) = tryIns.take n ++ [tryIns[n]] := (List.take_append_getElem (by omega)).symm
      have hle : (tryIns.take (n + 1)).count true ≤ N := by
        rw [← hc]; exact (List.take_sublist _ _).count_le _
      obtain ⟨x2, a2, e2, i2, l2, n2⟩ := insRemTurn_spec ht hm hu i1 l1 hg (by
        intro hb
        rw [htake, hb, List.count_append, ← n1] at hle
        simp at hle
        omega) J Us
      refine ⟨x2, a2, ?_, i2, l2, ?_⟩
      · rw [List.range_succ, Res.foldl_append, e1]
        simp only [Res.bind_ok, Res.foldl_cons, Res.foldl_nil, e2]
      · rw [n2, n1, htake, List.count_append]
        cases tryIns[n] <;> simp
  obtain ⟨x', a', e, i, -, n⟩ := key _ le_rfl
  exact ⟨x', a', e, i, by rw [n, List.take_length, hc]⟩

theorem getD_append_right' (l l' : List Vert) (i : ℕ) (h : l.length ≤ i) :
    (l ++ l').getD i default = l'.getD (i - l.length) default := List.getD_append_right _ _ _ _ h

theorem fresh_getD {k : ℕ} {new : List Vert} {i : ℕ} (hi : i < new.length) :
    (fresh k new).getD i default = { new.getD i default with nonInt := true, uid := k + 1 + i } := by
  induction new generalizing k i with
  | nil => simp at hi
  | cons v new ih =>
    cases i with
    | zero => rfl
    | succ i =>
      rw [fresh, List.getD_cons_succ, List.getD_cons_succ, ih (by simpa using hi)]
      rw [show k + 1 + 1 + i = k + 1 + (i + 1) by omega]

theorem doInsRem_spec (ht : TblOK c.NI c.nf c.tbl) (hf : FullTerms c) {beta : ℝ} {kIns maxOrder : ℕ} {sz : ℝ}
    {m : Mgr} (hm : m = Mgr.create beta kIns maxOrder sz c.tbl) {u : ℕ → ℝ} (hu : ∀ k, 0 ≤ u k ∧ u k < 1)
    (h : Means c s a) (hcl : a.isOpen = false) (J : ℕ → ℕ → ℕ → ℕ → ℕ → K) (Us : ℝ) (st : AccStat) (p : ℕ) :
    ∃ x a', m.doInsRem c J u Us s st p = .ok x ∧ Means c x.s a' ∧ a'.isOpen = false ∧ Reach c a a' ∧
      x.w = weight c.NI c.nf c.G0 c.tbl a'.cfg / weight c.NI c.nf c.G0 c.tbl a.cfg := by
  unfold Mgr.doInsRem
  simp only []
  obtain ⟨tryIns, htry⟩ : ∃ l, l = (List.range (2 * m.kIns)).map fun i => decide (u (p + i) < 1 / 2) := ⟨_, rfl⟩
  have htl : tryIns.length = 2 * m.kIns := by rw [htry]; simp
  obtain ⟨g, eg, g1, g2, g3, g4, g5⟩ := genAll_spec (beta := beta) (kIns := kIns) (maxOrder := maxOrder) (sz := sz) hf hu
    s.verts.length (tryIns.count true) (p + 2 * m.kIns)
  rw [← hm] at eg
  obtain ⟨s1, e1, m1, ad1⟩ := start_spec ht h hcl (new := g.new) (fun v hv => (g2 v hv).type) (J 0 0) (J 0 1) (J 0 2)
  have hcfg : (a.step (.start g.new)).cfg = a.cfg ++ fresh a.lastId g.new := rfl
  have hbase : (a.step (.start g.new)).base = a.cfg ++ fresh a.lastId g.new := rfl
  have hlen : (a.step (.start g.new)).cfg.length = a.cfg.length + perIns c * tryIns.count true := by
    rw [hcfg, List.length_append, fresh_length, g1]
  have hne := h.weight_ne_zero ht
  have hnew : ∀ i, a.cfg.length ≤ i → i < (a.step (.start g.new)).cfg.length →
      ∃ v, v ∈ g.new ∧ ∃ id, (a.step (.start g.new)).base.getD i default = { v with nonInt := true, uid := id } := by
    intro i h1 h2
    rw [hlen, ← g1] at h2
    have hi : i - a.cfg.length < g.new.length := by omega
    rw [hbase, getD_append_right' _ _ _ h1, fresh_getD hi, List.getD_eq_getElem _ _ hi]
    exact ⟨_, List.getElem_mem hi, _, rfl⟩
  have hinv : InsInv c a (weight c.NI c.nf c.G0 c.tbl a.cfg) a.cfg.length ⟨s1, 0, 1, st, g.p, []⟩ (a.step (.start g.new)) := by
    refine ⟨m1, rfl, (Reach.refl a).step ad1, rfl, ?_, ?_, ?_, fun _ _ => Or.inl rfl, fun _ _ _ => rfl, ?_⟩
    · intro i hi
      rw [hbase, List.getD_append _ _ _ _ hi, List.getD_eq_getElem _ _ hi]
      exact h.all_int hcl _ (List.getElem_mem hi)
    · intro i h1 h2
      obtain ⟨v, _, id, e⟩ := hnew i h1 h2
      rw [e]
    · intro i h1 h2
      obtain ⟨v, hv, id, e⟩ := hnew i h1 h2
      rw [e]
      exact ⟨(g2 v hv).af0, (g2 v hv).af1⟩
    · show 1 * _ = _
      rw [one_mul, hcfg, weight_start]
  obtain ⟨x', a', ex, ix, nx⟩ := insRemLoop_spec ht hm hu hinv rfl hlen rfl J Us
  obtain ⟨s2, e2, m2, ad2⟩ := finish_spec ht hf ix.means ix.op (J 1 0) (J 1 1) (J 1 2)
  refine ⟨{ x' with s := s2 }, a'.step .finish, ?_, m2, rfl, ix.reach.step ad2, ?_⟩
  · rw [← htry, eg]
    simp only [Res.bind_ok]
    rw [e1]
    simp only [Res.bind_ok]
    rw [g3, g4, h.cfg, ← htl, ex]
    simp only [Res.bind_ok]
    rw [Res.assert_true nx]
    simp only [Res.bind_ok]
    rw [e2]
    rfl
  · show x'.w = weight c.NI c.nf c.G0 c.tbl (interacting a'.cfg) / _
    rw [weight_finish, ← ix.w]
    field_simp

end CTInt
