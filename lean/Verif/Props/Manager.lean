import Verif.Proofs.ManagerTotal
import Mathlib.Data.Nat.Pairing

/-!
# The Monte Carlo updates: C38, C39, C40, C53

`Walker.run` is the modelled code (`Verif.Model.Manager`); `u` is the stream of random numbers, `fuel` bounds the
turns of the loops that draw until a condition holds, `J` is the contents of uninitialised memory.
-/

set_option linter.all false

namespace CTInt

variable {K : Type} [RCLike K] [DecidableEq K]
variable {c : Ctx K}

/-! ## C38 -/

/-- The fields of all vertices are states (not the mark -1). -/
def FieldsOK (vs : List Vert) : Prop := ∀ v ∈ vs, 0 ≤ v.af

theorem FieldsOK.flip {vs : List Vert} (h : FieldsOK vs) {i : ℕ} {z : ℤ} (hz : z = -1 ∨ 0 ≤ z) :
    FieldsOK (vs.modify i (flipTo · z)) := by
  intro v hv
  obtain ⟨j, hj, rfl⟩ := List.getElem_of_mem hv
  rw [List.getElem_modify]
  rw [List.length_modify] at hj
  split
  · unfold flipTo
    split
    · exact (h vs[j] (List.getElem_mem hj) : 0 ≤ (vs[j]).af)
    · rename_i hne
      exact hz.resolve_left hne
  · exact h _ (List.getElem_mem hj)

theorem insertionStep_fields {m : Mgr} {junk : ℕ → ℕ → ℕ → K} {u : ℕ → ℝ} {Us : ℝ} {s s' : Sub K} {b n p p' : ℕ}
    {o : Option K} (e : m.insertionStep c junk u Us s b n p = .ok (s', o, p')) (h : FieldsOK s.verts) :
    FieldsOK s'.verts := by
  unfold Mgr.insertionStep at e
  rw [Res.bind_eq_ok] at e
  obtain ⟨_, hlen, e⟩ := e
  rw [Res.assert_eq_ok] at hlen
  split at e
  · cases e; exact h
  · rename_i hn
    simp only [Res.bind_eq_ok] at e
    obtain ⟨_, _, corr, e1, ⟨s1, o1, w1⟩, e2, e⟩ := e
    cases e
    by_cases h1 : n = 1
    · subst h1
      rw [(metropolis_verts e2).1]
      split
      · simp only [List.range_one, List.map_cons, List.map_nil, List.zip_cons_cons, List.zip_nil_right, flipAll]
        refine h.flip (Or.inr ?_)
        rw [List.getD_eq_getElem _ _ (by omega)]
        exact h _ (List.getElem_mem _)
      · exact h
    · rw [if_neg h1] at e1; cases e1

theorem removalStep_fields {m : Mgr} {junk : ℕ → ℕ → ℕ → K} {u : ℕ → ℝ} {Us : ℝ} {s s' : Sub K} {p p' : ℕ}
    {o : Option K} (e : m.removalStep c junk u Us s p = .ok (s', o, p')) (h : FieldsOK s.verts) :
    FieldsOK s'.verts := by
  unfold Mgr.removalStep at e
  rw [Res.bind_eq_ok] at e
  obtain ⟨⟨i, corr, p1⟩, _, e⟩ := e
  cases i with
  | none => cases e; exact h
  | some i =>
    simp only [Res.bind_eq_ok] at e
    obtain ⟨_, _, ⟨s1, o1, w1⟩, e2, e⟩ := e
    cases e
    rw [(metropolis_verts e2).1]
    split
    · exact h.flip (Or.inl rfl)
    · exact h

theorem insRemTurn_fields {m : Mgr} {J : ℕ → ℕ → ℕ → ℕ → ℕ → K} {u : ℕ → ℝ} {Us : ℝ} {posIns numIns : List ℕ}
    {tryIns : List Bool} {x x' : Mgr.InsRem K} {i : ℕ}
    (e : m.insRemTurn c J u Us posIns numIns tryIns x i = .ok x') (h : FieldsOK x.s.verts) : FieldsOK x'.s.verts := by
  unfold Mgr.insRemTurn at e
  rw [Res.bind_eq_ok] at e
  obtain ⟨b, _, e⟩ := e
  rw [Res.bind_eq_ok] at e
  obtain ⟨⟨s, o, p, ins⟩, e1, e⟩ := e
  cases e
  show FieldsOK s.verts
  cases b with
  | true =>
    rw [if_pos rfl] at e1
    rw [Res.bind_eq_ok] at e1
    obtain ⟨q, _, e1⟩ := e1
    rw [Res.bind_eq_ok] at e1
    obtain ⟨n, _, e1⟩ := e1
    split at e1
    · cases e1; exact h
    · rw [Res.bind_eq_ok] at e1
      obtain ⟨⟨s1, o1, p1⟩, e2, e1⟩ := e1
      cases e1
      exact insertionStep_fields e2 h
  | false =>
    rw [if_neg (by simp), Res.bind_eq_ok] at e1
    obtain ⟨⟨s1, o1, p1⟩, e2, e1⟩ := e1
    cases e1
    exact removalStep_fields e2 h

theorem genAll_fields {m : Mgr} {tbl : List (VDef K)} {u : ℕ → ℝ} {Nv0 n p : ℕ} {g : Mgr.GenAll}
    (e : m.genAll tbl u Nv0 n p = .ok g) : FieldsOK g.new := by
  unfold Mgr.genAll at e
  have : ∀ (l : List ℕ) (x : Mgr.GenAll), FieldsOK x.new → Res.foldl (fun (x : Mgr.GenAll) (_ : ℕ) => do
      let (vs, p) ← m.genVertex tbl u x.p
      pure (⟨x.new ++ vs, x.pos ++ [x.b], x.num ++ [vs.length], x.b + vs.length, p⟩ : Mgr.GenAll)) x l = .ok g →
      FieldsOK g.new := by
    intro l
    induction l with
    | nil => intro x hx e; cases e; exact hx
    | cons i l ih =>
      intro x hx e
      rw [Res.foldl_cons, Res.bind_eq_ok] at e
      obtain ⟨x1, e1, e2⟩ := e
      refine ih x1 ?_ e2
      rw [Res.bind_eq_ok] at e1
      obtain ⟨⟨vs, p⟩, e3, e1⟩ := e1
      cases e1
      intro v hv
      rcases List.mem_append.mp hv with hv1 | hv1
      · exact hx v hv1
      · unfold Mgr.genVertex at e3
        split at e3
        · cases e3; cases hv1
        · simp only [Res.bind_eq_ok] at e3
          obtain ⟨t, _, d, _, e3⟩ := e3
          cases e3
          rw [List.mem_singleton] at hv1
          subst hv1
          exact Int.natCast_nonneg _
  exact this _ _ (by intro v hv; cases hv) e

theorem fresh_fields {k : ℕ} {vs : List Vert} (h : FieldsOK vs) : FieldsOK (fresh k vs) := by
  induction vs generalizing k with
  | nil => exact h
  | cons v vs ih =>
    intro w hw
    rw [fresh, List.mem_cons] at hw
    rcases hw with rfl | hw
    · exact h v (by simp)
    · exact ih (fun w hw => h w (List.mem_cons_of_mem _ hw)) w hw

theorem doInsRem_fields {m : Mgr} {J : ℕ → ℕ → ℕ → ℕ → ℕ → K} {u : ℕ → ℝ} {Us : ℝ} {s : Sub K} {st : AccStat} {p : ℕ}
    {x : Mgr.InsRem K} (e : m.doInsRem c J u Us s st p = .ok x) (h : FieldsOK s.verts) : FieldsOK x.s.verts := by
  unfold Mgr.doInsRem at e
  simp only [Res.bind_eq_ok] at e
  obtain ⟨g, eg, s1, e1, y, e2, _, _, s2, e3, e⟩ := e
  cases e
  obtain ⟨a1, a2, a3⟩ := initUpdate_verts e1
  have h1 : FieldsOK s1.verts := by
    rw [a1]
    intro v hv
    rcases List.mem_append.mp hv with hv | hv
    · exact h v hv
    · exact fresh_fields (genAll_fields eg) v hv
  have h2 : FieldsOK y.s.verts :=
    insRem_fold (P := fun x => FieldsOK x.s.verts) (fun x x' i hx ex => insRemTurn_fields ex hx) e2 h1
  show FieldsOK s2.verts
  rw [(finalizeUpdate_verts e3).1]
  exact fun v hv => h2 v (List.mem_filter.mp hv).1

theorem recompute_verts {s s' : Sub K} (e : s.recompute c = .ok s') : s'.verts = s.verts := by
  have h := call_agree (c := c) (J := fun _ _ _ _ => 0) (call := .recompute) (absOf_agree s) (s' := s') e
  exact h.1

/-- What C38 is carried by. -/
def OrderOK (m : Mgr) (s : Sub K) : Prop := s.verts.length ≤ m.maxOrder ∧ FieldsOK s.verts

theorem step_order {m : Mgr} {J : ℕ → ℕ → ℕ → ℕ → ℕ → K} {u : ℕ → ℝ} (hu : ∀ k, 0 ≤ u k ∧ u k < 1) (hb : 0 < m.beta)
    (hs : 0 ≤ m.shiftStep) {fuel : ℕ} {x x' : Walker K} {a : Upd} (e : x.step m c J u fuel a = .ok x')
    (h : OrderOK m x.s) : OrderOK m x'.s := by
  cases a with
  | insRem =>
    simp only [Walker.step, Run.bind_eq_ok, Run.lift_eq_ok] at e
    obtain ⟨r, e1, e⟩ := e
    cases e
    exact ⟨(doInsRem_count e1 h.1).1, doInsRem_fields e1 h.2⟩
  | shift =>
    simp only [Walker.step, Run.bind_eq_ok, Run.lift_eq_ok] at e
    obtain ⟨⟨s', w, p⟩, e1, e⟩ := e
    cases e
    obtain ⟨⟨L, h1, h2⟩, _⟩ := doShift_verts hu hb hs h.2 e1
    refine ⟨?_, fun v hv => ?_⟩
    · show s'.verts.length ≤ _
      rw [h2.length_eq, ← h1.length_eq]; exact h.1
    · have hv : v ∈ L := h2.mem_iff.mp hv
      obtain ⟨i, hi, rfl⟩ := List.getElem_of_mem hv
      have hi' : i < x.s.verts.length := by rw [h1.length_eq]; exact hi
      have h3 := h1.get hi' hi
      simp only [List.get_eq_getElem] at h3
      have h4 := h.2 _ (List.getElem_mem hi')
      rcases h3 with h3 | ⟨t, k, id, h3, _⟩
      · rw [h3]; exact h4
      · rw [h3]; exact h4
  | spinFlip =>
    simp only [Walker.step, Run.bind_eq_ok, Run.lift_eq_ok] at e
    obtain ⟨⟨s', w, p⟩, e1, e⟩ := e
    cases e
    obtain ⟨h1, _⟩ := doSpinFlip_verts hu e1
    refine ⟨?_, fun v hv => ?_⟩
    · show s'.verts.length ≤ _
      rw [← h1.length_eq]; exact h.1
    · obtain ⟨i, hi, rfl⟩ := List.getElem_of_mem hv
      have hi' : i < x.s.verts.length := by rw [h1.length_eq]; exact hi
      obtain ⟨z, h3, h5⟩ := h1.get hi' hi
      simp only [List.get_eq_getElem] at h3 h5
      have h4 := h.2 _ (List.getElem_mem hi')
      rw [h3]
      show 0 ≤ z
      rcases h5 with h5 | h5
      · rw [h5]; exact h4
      · exact h5.1
  | recompute =>
    simp only [Walker.step, Run.bind_eq_ok, Run.lift_eq_ok] at e
    obtain ⟨s', e1, e⟩ := e
    cases e
    have := recompute_verts e1
    refine ⟨?_, ?_⟩
    · show s'.verts.length ≤ _
      rw [this]; exact h.1
    · show FieldsOK s'.verts
      rw [this]; exact h.2

/-- C38: any sequence of updates, of any length and for any stream of random numbers, keeps the number of vertices
    at or below `max_order` if it is there at the beginning.  Nothing is assumed of the interaction, of G0 or of the
    matrices the object holds. -/
theorem C38_max_order {m : Mgr} {J : ℕ → ℕ → ℕ → ℕ → ℕ → ℕ → K} {u : ℕ → ℝ} (hu : ∀ k, 0 ≤ u k ∧ u k < 1)
    (hb : 0 < m.beta) (hs : 0 ≤ m.shiftStep) {fuel : ℕ} {x x' : Walker K} {l : List Upd}
    (e : x.run m c J u fuel l = .ok x') (h : x.s.verts.length ≤ m.maxOrder) (haf : ∀ v ∈ x.s.verts, 0 ≤ v.af) :
    x'.s.verts.length ≤ m.maxOrder := by
  suffices h' : OrderOK m x'.s from h'.1
  have h0 : OrderOK m x.s := ⟨h, haf⟩
  clear h haf
  induction l generalizing x with
  | nil => cases e; exact h0
  | cons a l ih =>
    simp only [Walker.run, Run.bind_eq_ok] at e
    obtain ⟨x1, e1, e2⟩ := e
    exact ih e2 (step_order hu hb hs e1 h0)

/-- C38, within an update: at every turn of the insertion-removal loop the number of interacting vertices is at most
    `max_order`. -/
theorem C38_within_update {m : Mgr} {J : ℕ → ℕ → ℕ → ℕ → ℕ → K} {u : ℕ → ℝ} {Us : ℝ} {posIns numIns : List ℕ}
    {tryIns : List Bool} {x x' : Mgr.InsRem K} {l : List ℕ}
    (e : Res.foldl (m.insRemTurn c J u Us posIns numIns tryIns) x l = .ok x')
    (h : (interacting x.s.verts).length ≤ m.maxOrder) : (interacting x'.s.verts).length ≤ m.maxOrder :=
  insRem_fold (P := fun x => (interacting x.s.verts).length ≤ m.maxOrder) (fun x x' i hx ex => insRemTurn_count ex hx) e h

/-! ## C39 -/

/-- C39: a spin-flip update keeps every vertex at its place and changes at most its field, to a valid state. -/
theorem C39_spin_flip {m : Mgr} {J : ℕ → ℕ → ℕ → ℕ → ℕ → K} {u : ℕ → ℝ} (hu : ∀ k, 0 ≤ u k ∧ u k < 1) {fuel : ℕ}
    {s s' : Sub K} {w : K} {p p' : ℕ} (e : m.doSpinFlip c J u fuel s p = .ok (s', w, p')) :
    List.Forall₂ (OnlyFieldChanged c.tbl) s.verts s'.verts := (doSpinFlip_verts hu e).1

/-- C39: a shift update changes, up to the order of the list, at most the times (and ids) of the vertices. -/
theorem C39_shift {m : Mgr} {J : ℕ → ℕ → ℕ → ℕ → ℕ → K} {u : ℕ → ℝ} (hu : ∀ k, 0 ≤ u k ∧ u k < 1) (hb : 0 < m.beta)
    (hs : 0 ≤ m.shiftStep) {fuel : ℕ} {s s' : Sub K} (haf : ∀ v ∈ s.verts, 0 ≤ v.af) {w : K} {p p' : ℕ}
    (e : m.doShift c J u fuel s p = .ok (s', w, p')) :
    ∃ L, List.Forall₂ (OnlyTimeChanged m.beta m.shiftStep) s.verts L ∧ s'.verts.Perm L :=
  (doShift_verts hu hb hs haf e).1

/-- C39: the multiset of types and, for shifts, of types with fields, ranks and flags stays the same. -/
theorem C39_multiset {m : Mgr} {J : ℕ → ℕ → ℕ → ℕ → ℕ → K} {u : ℕ → ℝ} (hu : ∀ k, 0 ≤ u k ∧ u k < 1) (hb : 0 < m.beta)
    (hs : 0 ≤ m.shiftStep) {fuel : ℕ} {s s' : Sub K} (haf : ∀ v ∈ s.verts, 0 ≤ v.af) {w : K} {p p' : ℕ} :
    (m.doSpinFlip c J u fuel s p = .ok (s', w, p') →
      (s'.verts.map fun v => (v.type, v.time, v.rank, v.isDensity, v.nonInt, v.uid)) =
        s.verts.map fun v => (v.type, v.time, v.rank, v.isDensity, v.nonInt, v.uid)) ∧
    (m.doShift c J u fuel s p = .ok (s', w, p') →
      (s'.verts.map fun v => (v.type, v.af, v.rank, v.isDensity, v.nonInt)).Perm
        (s.verts.map fun v => (v.type, v.af, v.rank, v.isDensity, v.nonInt))) := by
  constructor
  · intro e
    have h := C39_spin_flip hu e
    generalize s.verts = l at h
    generalize s'.verts = l' at h
    induction h with
    | nil => rfl
    | cons h1 _ ih =>
      rw [List.map_cons, List.map_cons, ih]
      obtain ⟨x, rfl, _⟩ := h1
      rfl
  · intro e
    obtain ⟨L, h, hp⟩ := C39_shift hu hb hs haf e
    refine (hp.map _).trans ?_
    have : (L.map fun v => (v.type, v.af, v.rank, v.isDensity, v.nonInt)) =
        s.verts.map fun v => (v.type, v.af, v.rank, v.isDensity, v.nonInt) := by
      clear hp e haf
      generalize s.verts = l at h
      induction h with
      | nil => rfl
      | cons h1 _ ih =>
        rw [List.map_cons, List.map_cons, ih]
        rcases h1 with rfl | ⟨t, k, id, rfl, _⟩ <;> rfl
    rw [this]

/-! ## C40 -/

/-- The number of turns counted as accepted is the number of accepted moves whose weight ratio is not 1. -/
theorem insRem_counts {m : Mgr} {J : ℕ → ℕ → ℕ → ℕ → ℕ → K} {u : ℕ → ℝ} {Us : ℝ} {posIns numIns : List ℕ}
    {tryIns : List Bool} {x x' : Mgr.InsRem K} {l : List ℕ}
    (e : Res.foldl (m.insRemTurn c J u Us posIns numIns tryIns) x l = .ok x') :
    ∃ t : List (Option K), x'.truth = x.truth ++ t ∧ t.length = l.length ∧
      x'.stat.acc = x.stat.acc + t.countP (fun o => decide (o.getD 1 ≠ 1)) ∧
      x'.stat.acc + x'.stat.rej = x.stat.acc + x.stat.rej + t.length := by
  induction l generalizing x with
  | nil => cases e; exact ⟨[], by simp⟩
  | cons i l ih =>
    rw [Res.foldl_cons, Res.bind_eq_ok] at e
    obtain ⟨x1, e1, e2⟩ := e
    obtain ⟨t, h1, h2, h3, h4⟩ := ih e2
    unfold Mgr.insRemTurn at e1
    rw [Res.bind_eq_ok] at e1
    obtain ⟨b, _, e1⟩ := e1
    rw [Res.bind_eq_ok] at e1
    obtain ⟨⟨s, o, p, ins⟩, _, e1⟩ := e1
    cases e1
    refine ⟨o :: t, ?_, by simp [h2], ?_, ?_⟩
    · rw [h1]; simp
    · rw [h3, List.countP_cons]
      unfold AccStat.count
      by_cases h : o.getD 1 = 1
      · simp [h]
      · simp [h]; omega
    · rw [h4]
      unfold AccStat.count
      by_cases h : o.getD 1 = 1
      · simp [h]; omega
      · simp [h]; omega

theorem countP_eq_isSome {t : List (Option K)} (h : some 1 ∉ t) :
    t.countP (fun o => decide (o.getD 1 ≠ 1)) = t.countP (fun o => o.isSome) := by
  apply List.countP_congr
  intro o ho
  cases o with
  | none => simp
  | some y =>
    have : y ≠ 1 := fun e => h (e ▸ ho)
    simp [this]

/-- C40: every turn of an insertion-removal update is counted once; no rejected move is counted as accepted; and every
    accepted move is counted as accepted unless its weight ratio is exactly 1.  (Partial: see `C40_violation`.) -/
theorem C40_counts_partial {m : Mgr} {J : ℕ → ℕ → ℕ → ℕ → ℕ → K} {u : ℕ → ℝ} {Us : ℝ} {s : Sub K} {st : AccStat} {p : ℕ}
    {x : Mgr.InsRem K} (e : m.doInsRem c J u Us s st p = .ok x) :
    x.truth.length = 2 * m.kIns ∧ x.stat.acc + x.stat.rej = st.acc + st.rej + 2 * m.kIns ∧
      x.stat.acc = st.acc + x.truth.countP (fun o => decide (o.getD 1 ≠ 1)) ∧
      (some 1 ∉ x.truth → x.stat.acc = st.acc + x.truth.countP (fun o => o.isSome)) := by
  unfold Mgr.doInsRem at e
  simp only [Res.bind_eq_ok] at e
  obtain ⟨g, eg, s1, e1, y, e2, _, _, s2, e3, e⟩ := e
  cases e
  obtain ⟨t, h1, h2, h3, h4⟩ := insRem_counts e2
  rw [List.nil_append] at h1
  rw [List.length_range] at h2
  simp only [h1]
  refine ⟨h2, by rw [h4, h2], h3, fun hn => ?_⟩
  rw [h3, countP_eq_isSome hn]

/-! ## C53 -/

/-- The object is exact for its vertex list: from-scratch evaluation gives a non-zero weight, the sign it carries, and
    matrices that are, like those it returns, the inverses of the matrices of its operators, flavor by flavor. -/
def ExactFor (c : Ctx K) (s : Sub K) : Prop :=
  ∃ M M', s.computeM c = .ok M ∧ s.computeMScratch c = .ok (M', s.sign, weight c.NI c.nf c.G0 c.tbl s.verts) ∧
    s.sign = mysign (weight c.NI c.nf c.G0 c.tbl s.verts) ∧ weight c.NI c.nf c.G0 c.tbl s.verts ≠ 0 ∧
    ∀ fl < c.nf, ∃ l : List (OpRow K), l.Perm (rowsOf c.NI c.tbl s.verts fl) ∧ l = (s.invA fl).rowList ∧
      IsInvOf (M fl) l.length (rowG c.G0 l) ∧ IsInvOf (M' fl) l.length (rowG c.G0 l)

theorem Means.exactFor (ht : TblOK c.NI c.nf c.tbl) {s : Sub K} {a : Abs} (m : Means c s a) (hcl : a.isOpen = false) :
    ExactFor c s := by
  have hR := m.cl hcl
  have hw := ready_weight_ne_zero ht hR
  obtain ⟨M, e1, q1⟩ := computeM_spec ht hR
  obtain ⟨M', e2, q2⟩ := computeMScratch_spec ht hR hw
  exact ⟨M, M', e1, e2, hR.sgn, hw, fun fl hfl => ⟨_, hR.rows fl hfl, rfl, q1 fl hfl, q2 fl hfl⟩⟩

theorem Total.lift {α : Type} {u : ℕ → ℝ} {r : Res α} {x : α} {P : α → Prop} (e : r = .ok x) (h : P x) :
    Total u (fun _ => Run.lift r) P := by
  subst e
  exact Total.ok h

/-- A closed object with a meaning. -/
def Closed (c : Ctx K) (s : Sub K) : Prop := ∃ a : Abs, Means c s a ∧ a.isOpen = false

theorem step_total (ht : TblOK c.NI c.nf c.tbl) (hf : FullTerms c) {beta : ℝ} {kIns maxOrder : ℕ} {sz : ℝ}
    {m : Mgr} (hm : m = Mgr.create beta kIns maxOrder sz c.tbl) {u : ℕ → ℝ} (hu : ∀ k, 0 ≤ u k ∧ u k < 1)
    {x : Walker K} (h : Closed c x.s) (J : ℕ → ℕ → ℕ → ℕ → ℕ → K) (a : Upd) :
    Total u (fun fuel => x.step m c J u fuel a) (fun y => Closed c y.s) := by
  obtain ⟨b, hb, hcl⟩ := h
  cases a with
  | insRem =>
    obtain ⟨y, a', e, h1, h2, _⟩ := doInsRem_spec ht hf hm hu hb hcl J 1 x.stat x.p
    unfold Walker.step
    simp only [e, Run.lift_ok, Run.bind_ok, Run.pure_eq]
    exact Total.ok ⟨a', h1, h2⟩
  | shift =>
    unfold Walker.step
    refine (doShift_total ht hf hu m hb hcl J x.p).bind ?_
    rintro ⟨s', w, p⟩ ⟨a', h1, h2, _⟩
    exact Total.ok ⟨a', h1, h2⟩
  | spinFlip =>
    unfold Walker.step
    refine (doSpinFlip_total ht hf hu m hb hcl J x.p).bind ?_
    rintro ⟨s', w, p⟩ ⟨a', h1, h2, _⟩
    exact Total.ok ⟨a', h1, h2⟩
  | recompute =>
    obtain ⟨s', e, h1⟩ := step_spec ht hb (call := .recompute) hcl (fun _ _ _ _ => 0)
    have e : x.s.recompute c = .ok s' := e
    unfold Walker.step
    simp only [e, Run.lift_ok, Run.bind_ok, Run.pure_eq]
    exact Total.ok ⟨_, h1, hcl⟩

theorem run_total (ht : TblOK c.NI c.nf c.tbl) (hf : FullTerms c) {beta : ℝ} {kIns maxOrder : ℕ} {sz : ℝ}
    {m : Mgr} (hm : m = Mgr.create beta kIns maxOrder sz c.tbl) {u : ℕ → ℝ} (hu : ∀ k, 0 ≤ u k ∧ u k < 1)
    {x : Walker K} (h : Closed c x.s) (J : ℕ → ℕ → ℕ → ℕ → ℕ → ℕ → K) (l : List Upd) :
    Total u (fun fuel => x.run m c J u fuel l) (fun y => Closed c y.s) := by
  induction l generalizing x with
  | nil => exact Total.ok h
  | cons a l ih =>
    unfold Walker.run
    exact (step_total ht hf hm hu h _ a).bind fun y hy => ih hy

/-- C53: from any admissible initial configuration, any sequence of updates with any random numbers never fails (no
    exception, no violated assertion, no access outside a container, no inversion of a singular matrix): it either is
    still drawing random numbers, or has returned an object that is exact for its vertex list; and on a stream that
    keeps producing every value it does return. -/
theorem C53_updates_never_fail (ht : TblOK c.NI c.nf c.tbl) (hf : FullTerms c) {beta : ℝ} {kIns maxOrder : ℕ} {sz : ℝ}
    {m : Mgr} (hm : m = Mgr.create beta kIns maxOrder sz c.tbl) {u : ℕ → ℝ} (hu : ∀ k, 0 ≤ u k ∧ u k < 1)
    {vs : List Vert} (hs : GoodStart c.NI c.nf c.G0 c.tbl vs) (st : AccStat) (p : ℕ)
    (J : ℕ → ℕ → ℕ → ℕ → ℕ → ℕ → K) (l : List Upd) :
    ∃ s0, Sub.create c vs = .ok s0 ∧
      (∀ fuel, (⟨s0, st, p⟩ : Walker K).run m c J u fuel l = .more ∨
        ∃ y, (⟨s0, st, p⟩ : Walker K).run m c J u fuel l = .ok y ∧ ExactFor c y.s) ∧
      (Fair u → ∃ F y, ∀ fuel ≥ F, (⟨s0, st, p⟩ : Walker K).run m c J u fuel l = .ok y) := by
  obtain ⟨s0, e0, m0⟩ := create_means ht hs
  have h := run_total ht hf hm hu (x := ⟨s0, st, p⟩) ⟨_, m0, rfl⟩ J l
  refine ⟨s0, e0, fun fuel => ?_, h.ends⟩
  have h1 := h.good fuel
  rcases hr : (⟨s0, st, p⟩ : Walker K).run m c J u fuel l with y | e | _ | _
  · rw [hr] at h1
    obtain ⟨a, h2, h3⟩ := h1
    exact Or.inr ⟨y, rfl, h2.exactFor ht h3⟩
  · rw [hr] at h1; exact h1.elim
  · rw [hr] at h1; exact h1.elim
  · exact Or.inl rfl

/-- C53: whatever was done before, the number an update returns is the weight of the configuration it leaves divided by
    the weight of the configuration it met. -/
theorem C53_returned_ratio (ht : TblOK c.NI c.nf c.tbl) (hf : FullTerms c) {beta : ℝ} {kIns maxOrder : ℕ} {sz : ℝ}
    {m : Mgr} (hm : m = Mgr.create beta kIns maxOrder sz c.tbl) {u : ℕ → ℝ} (hu : ∀ k, 0 ≤ u k ∧ u k < 1)
    {vs : List Vert} (hs : GoodStart c.NI c.nf c.G0 c.tbl vs) {st : AccStat} {p : ℕ}
    {J : ℕ → ℕ → ℕ → ℕ → ℕ → ℕ → K} {l : List Upd} {s0 : Sub K} (h0 : Sub.create c vs = .ok s0) {fuel : ℕ} {y : Walker K}
    (hy : (⟨s0, st, p⟩ : Walker K).run m c J u fuel l = .ok y) (J' : ℕ → ℕ → ℕ → ℕ → ℕ → K) :
    (∃ x, m.doInsRem c J' u 1 y.s y.stat y.p = .ok x ∧
      x.w = weight c.NI c.nf c.G0 c.tbl x.s.verts / weight c.NI c.nf c.G0 c.tbl y.s.verts) ∧
    (∀ s' w p', m.doSpinFlip c J' u fuel y.s y.p = .ok (s', w, p') →
      w = weight c.NI c.nf c.G0 c.tbl s'.verts / weight c.NI c.nf c.G0 c.tbl y.s.verts) ∧
    (∀ s' w p', m.doShift c J' u fuel y.s y.p = .ok (s', w, p') →
      w = weight c.NI c.nf c.G0 c.tbl s'.verts / weight c.NI c.nf c.G0 c.tbl y.s.verts) := by
  obtain ⟨s1, e1, m1⟩ := create_means ht hs
  rw [h0] at e1
  obtain rfl : s0 = s1 := by injection e1
  have h := (run_total ht hf hm hu (x := ⟨s0, st, p⟩) ⟨_, m1, rfl⟩ J l).good fuel
  rw [hy] at h
  obtain ⟨a, h1, h2⟩ := h
  refine ⟨?_, ?_, ?_⟩
  · obtain ⟨x, a', e, q1, _, _, q2⟩ := doInsRem_spec ht hf hm hu h1 h2 J' 1 y.stat y.p
    exact ⟨x, e, by rw [q1.cfg, h1.cfg]; exact q2⟩
  · intro s' w p' e
    have := (doSpinFlip_total ht hf hu m h1 h2 J' y.p).good fuel
    rw [e] at this
    obtain ⟨a', q1, _, _, q2⟩ := this
    have q1 : Means c s' a' := q1
    rw [q1.cfg, h1.cfg]; exact q2
  · intro s' w p' e
    have := (doShift_total ht hf hu m h1 h2 J' y.p).good fuel
    rw [e] at this
    obtain ⟨a', q1, _, _, q2⟩ := this
    have q1 : Means c s' a' := q1
    rw [q1.cfg, h1.cfg]; exact q2

/-- C53: in particular any number of calls of `InteractionExpansion::update` (each with its own step number). -/
theorem C53_solver_updates (ht : TblOK c.NI c.nf c.tbl) (hf : FullTerms c) {beta : ℝ} {kIns maxOrder : ℕ} {sz : ℝ}
    {m : Mgr} (hm : m = Mgr.create beta kIns maxOrder sz c.tbl) {u : ℕ → ℝ} (hu : ∀ k, 0 ≤ u k ∧ u k < 1)
    {vs : List Vert} (hs : GoodStart c.NI c.nf c.G0 c.tbl vs) (st : AccStat) (p nIR nSh nSF period : ℕ) (steps : List ℕ)
    (J : ℕ → ℕ → ℕ → ℕ → ℕ → ℕ → K) :
    ∃ s0, Sub.create c vs = .ok s0 ∧
      ∀ fuel, (⟨s0, st, p⟩ : Walker K).run m c J u fuel (steps.flatMap (updateUpdates nIR nSh nSF period)) = .more ∨
        ∃ y, (⟨s0, st, p⟩ : Walker K).run m c J u fuel (steps.flatMap (updateUpdates nIR nSh nSF period)) = .ok y ∧
          ExactFor c y.s := by
  obtain ⟨s0, h1, h2, _⟩ := C53_updates_never_fail ht hf hm hu hs st p J (steps.flatMap (updateUpdates nIR nSh nSF period))
  exact ⟨s0, h1, h2⟩

/-! ## The theorems apply -/

theorem ex_full : FullTerms exCtx := by
  intro d hd
  simp only [exCtx, List.mem_singleton] at hd
  subst hd
  refine ⟨by decide, fun fl hfl => ⟨fl, hfl, ?_⟩⟩
  have : fl < 2 := hfl
  rcases fl with _ | _ | fl
  · rfl
  · rfl
  · omega

/-- A stream in [0,1) that keeps producing every index of every range. -/
noncomputable def exStream (k : ℕ) : ℝ :=
  (((k.unpair.1.unpair.2 % (k.unpair.1.unpair.1 + 1) : ℕ) : ℝ) + 1 / 2) / ((k.unpair.1.unpair.1 : ℝ) + 1)

theorem exStream_range (k : ℕ) : 0 ≤ exStream k ∧ exStream k < 1 := by
  unfold exStream
  have h : (0 : ℝ) < (k.unpair.1.unpair.1 : ℝ) + 1 := by positivity
  refine ⟨by positivity, ?_⟩
  rw [div_lt_one h]
  have : k.unpair.1.unpair.2 % (k.unpair.1.unpair.1 + 1) ≤ k.unpair.1.unpair.1 := by
    have := Nat.mod_lt k.unpair.1.unpair.2 (show 0 < k.unpair.1.unpair.1 + 1 by omega)
    omega
  have : ((k.unpair.1.unpair.2 % (k.unpair.1.unpair.1 + 1) : ℕ) : ℝ) ≤ k.unpair.1.unpair.1 := by exact_mod_cast this
  linarith

theorem exStream_fair : Fair exStream := by
  intro N x hx m
  refine ⟨Nat.pair (Nat.pair (N - 1) x) m, Nat.right_le_pair _ _, ?_⟩
  unfold exStream
  simp only [Nat.unpair_pair]
  obtain ⟨n, rfl⟩ : ∃ n, N = n + 1 := ⟨N - 1, by omega⟩
  rw [Nat.add_sub_cancel, Nat.mod_eq_of_lt hx]
  have h : (n : ℝ) + 1 ≠ 0 := by positivity
  push_cast
  rw [div_mul_cancel₀ _ h, Nat.floor_eq_iff (by positivity)]
  constructor <;> linarith

/-- Ten steps with all kinds of updates starting from the empty configuration return, with an exact object and at most
    five vertices. -/
example : ∃ s0 fuel y, Sub.create exCtx [] = .ok s0 ∧
    (⟨s0, ⟨0, 0⟩, 0⟩ : Walker ℝ).run (Mgr.create 1 3 5 (1 / 10) exCtx.tbl) exCtx (fun _ _ _ _ _ _ => 0) exStream fuel
      ((List.range 10).flatMap (updateUpdates 2 1 1 4)) = .ok y ∧ ExactFor exCtx y.s ∧ y.s.verts.length ≤ 5 := by
  obtain ⟨s0, h1, h2, h3⟩ := C53_updates_never_fail ex_tbl ex_full (beta := 1) (kIns := 3) (maxOrder := 5) (sz := 1 / 10) rfl
    exStream_range (empty_goodStart exCtx) ⟨0, 0⟩ 0 (fun _ _ _ _ _ _ => 0) ((List.range 10).flatMap (updateUpdates 2 1 1 4))
  obtain ⟨F, y, h4⟩ := h3 exStream_fair
  have h5 := h4 F le_rfl
  have hv : s0.verts = [] := (create_agree h1).1
  refine ⟨s0, F, y, h1, h5, ?_, ?_⟩
  · rcases h2 F with h | ⟨y', h, hy⟩
    · rw [h5] at h; cases h
    · rw [h5] at h
      obtain rfl : y = y' := by injection h
      exact hy
  · exact C38_max_order exStream_range (by show (0 : ℝ) < 1; norm_num) (by show (0 : ℝ) ≤ 1 * (1 / 10); norm_num) h5
      (by show s0.verts.length ≤ _; rw [hv]; simp) (by show ∀ v ∈ s0.verts, _; rw [hv]; simp)

/-! ## C40 fails -/

/-- The interaction of `exCtx` with U = 4/9: the weight of one vertex (field 0) is 1. -/
noncomputable def exTerm1 : VDef ℝ := ⟨2, [0, 1], [0, 0, 0, 0], 2, 4 / 9, fun s r => if s = r then 2 else -1⟩

noncomputable def exCtx1 : Ctx ℝ := ⟨100, 2, fun _ _ => 1 / 2, [exTerm1]⟩

theorem ex_tbl1 : TblOK exCtx1.NI exCtx1.nf exCtx1.tbl where
  fl := by intro d hd; simp only [exCtx1, List.mem_singleton] at hd; subst hd; rfl
  si := by intro d hd; simp only [exCtx1, List.mem_singleton] at hd; subst hd; rfl
  lt := by
    intro d hd f hf
    simp only [exCtx1, List.mem_singleton] at hd
    subst hd
    simp only [exTerm1, List.mem_cons, List.not_mem_nil, or_false] at hf
    show f < 2
    omega
  U := by
    intro d hd; simp only [exCtx1, List.mem_singleton] at hd; subst hd
    show (4 / 9 : ℝ) ≠ 0
    norm_num
  al := by
    intro d hd s _ r _
    simp only [exCtx1, List.mem_singleton] at hd
    subst hd
    exact ex_alpha s r

theorem ex_full1 : FullTerms exCtx1 := by
  intro d hd
  simp only [exCtx1, List.mem_singleton] at hd
  subst hd
  refine ⟨by decide, fun fl hfl => ⟨fl, hfl, ?_⟩⟩
  have : fl < 2 := hfl
  rcases fl with _ | _ | fl
  · rfl
  · rfl
  · omega

theorem ex_weight1 {v : Vert} (h1 : v.type = 0) (h2 : v.nonInt = false) (h3 : v.af = 0) :
    weight exCtx1.NI exCtx1.nf exCtx1.G0 exCtx1.tbl [v] = 1 := by
  have ht : termOf exCtx1.tbl v = exTerm1 := by unfold termOf; rw [h1]; rfl
  have hi : interacting [v] = [v] := by simp [interacting, h2]
  have r0 : rowsOf exCtx1.NI exCtx1.tbl [v] 0 = [rowOf exCtx1.NI exCtx1.tbl v 0] := by
    simp [rowsOf, rowsV, ht, exTerm1, flavorOf, List.range_succ, List.filter_cons]
  have r1 : rowsOf exCtx1.NI exCtx1.tbl [v] 1 = [rowOf exCtx1.NI exCtx1.tbl v 1] := by
    simp [rowsOf, rowsV, ht, exTerm1, flavorOf, List.range_succ, List.filter_cons]
  unfold weight detWeight uWeight
  rw [hi]
  show (∏ fl ∈ Finset.range 2, _) * _ = _
  rw [Finset.prod_range_succ, Finset.prod_range_succ, Finset.prod_range_zero, r0, r1]
  simp only [List.length_singleton, List.map_cons, List.map_nil, List.prod_cons, List.prod_nil, ht]
  unfold detN
  rw [Matrix.det_fin_one, Matrix.det_fin_one]
  simp only [toM_apply, rowG, specG, Fin.val_zero, if_true, List.getD_cons_zero, rowOf, fieldOf, h2, ht, h3,
    Bool.false_eq_true, if_false, Int.toNat_zero]
  simp only [exTerm1, exCtx1]
  norm_num

/-- Propose an insertion, then a removal. -/
noncomputable def exU (k : ℕ) : ℝ := if k = 1 then 3 / 4 else 0

theorem exU_range (k : ℕ) : 0 ≤ exU k ∧ exU k < 1 := by
  unfold exU; split <;> norm_num

/-- C40 fails: from the empty configuration of a valid interaction, one insertion-removal update accepts an insertion and
    then a removal, and counts both as rejected. -/
theorem C40_violation (J : ℕ → ℕ → ℕ → ℕ → ℕ → ℝ) :
    ∃ s0 x, Sub.create exCtx1 [] = .ok s0 ∧
      (Mgr.create 1 1 10 0 exCtx1.tbl).doInsRem exCtx1 J exU 1 s0 ⟨0, 0⟩ 0 = .ok x ∧
      x.truth = [some 1, some 1] ∧ x.stat.acc = 0 ∧ x.stat.rej = 2 := by
  obtain ⟨s0, e0, m0⟩ := create_means ex_tbl1 (empty_goodStart exCtx1)
  obtain ⟨m, hm⟩ : ∃ m, m = Mgr.create 1 1 10 0 exCtx1.tbl := ⟨_, rfl⟩
  have hv0 : s0.verts = [] := m0.cfg
  obtain ⟨v, hv⟩ : ∃ v : Vert, v = ⟨0, 0, 2, 0, exTerm1.isDensity, true, 0⟩ := ⟨_, rfl⟩
  have hg : m.genAll exCtx1.tbl exU 0 1 2 = .ok ⟨[v], [0], [1], 1, 5⟩ := by
    rw [hm, hv]
    simp [Mgr.genAll, Mgr.genVertex, Mgr.create, exU, exCtx1, Res.get, Res.foldl, exTerm1]
  obtain ⟨s1, e1, m1, _⟩ := start_spec ex_tbl1 m0 rfl (new := [v]) (by
    intro w hw; rw [List.mem_singleton] at hw; subst hw; rw [hv]; exact Nat.one_pos) (J 0 0) (J 0 1) (J 0 2)
  obtain ⟨a1, ha1⟩ : ∃ a1, a1 = (Abs.init []).step (.start [v]) := ⟨_, rfl⟩
  have hc1 : a1.cfg = [{ v with nonInt := true, uid := 1 }] := by rw [ha1]; rfl
  have hb1 : a1.base = [{ v with nonInt := true, uid := 1 }] := by rw [ha1]; rfl
  rw [← ha1] at m1
  obtain ⟨v1, hv1⟩ : ∃ v1 : Vert, v1 = { v with nonInt := true, uid := 1 } := ⟨_, rfl⟩
  obtain ⟨v2, hv2⟩ : ∃ v2 : Vert, v2 = { v with nonInt := false, uid := 1 } := ⟨_, rfl⟩
  rw [← hv1] at hc1 hb1
  have hop : a1.isOpen = true := by rw [ha1]; rfl
  have f1 : a1.cfg.modify 0 (flipTo · 0) = [v2] := by rw [hc1, hv1, hv2, hv]; rfl
  have w1 : weight exCtx1.NI exCtx1.nf exCtx1.G0 exCtx1.tbl a1.cfg = 1 := by
    rw [hc1, ← weight_nil exCtx1]
    apply weight_congr_int
    rw [hv1]; rfl
  have w2 : weight exCtx1.NI exCtx1.nf exCtx1.G0 exCtx1.tbl [v2] = 1 := by
    apply ex_weight1 <;> rw [hv2, hv]
  have dec : ∀ r : ℝ, r < 1 → decision r (1 / 1 : ℝ) (1 : ℝ) = some 1 := by
    intro r hr
    unfold decision
    rw [if_pos (by simpa using hr)]
    simp
  obtain ⟨s2, o2, e2, d2, m2, _⟩ := flip_one_spec ex_tbl1 m1 hop (i := 0) (z := 0) (by rw [hc1]; simp)
    (Or.inr ⟨le_rfl, by rw [hc1, hv1, hv]; simp [termOf, exCtx1, exTerm1]⟩) (Or.inl (by rw [hc1, hb1])) (exU_range 5).1 1 (J 2 0)
  rw [f1, w1, w2, dec _ (exU_range 5).2] at d2
  rw [d2] at e2 m2
  simp only [Option.isSome_some, if_true, f1] at m2
  have i1 : m.insertionStep exCtx1 (J 2 0) exU 1 s1 0 1 5 = .ok (s2, some 1, 6) := by
    unfold Mgr.insertionStep
    rw [m1.cfg, hc1, Res.assert_true (by simp)]
    simp only [Res.bind_ok, one_ne_zero, if_false]
    rw [Res.assert_true (by intro i hi; simp at hi; subst hi; rw [hv1]; rfl)]
    have hcand : m.corrIns [v1] = .ok 1 := by
      unfold Mgr.corrIns
      rw [hm, candidates_spec (by intro w hw; simp at hw; subst hw; rw [hv1, hv]; exact Nat.one_pos)]
      rw [hv1]
      simp [Mgr.create, exCtx1]
    simp only [Res.bind_ok, if_true, hcand, List.range_one, List.map_cons, List.map_nil, zero_add]
    have : ([v1].getD 0 default).af = 0 := by rw [hv1, hv]; rfl
    rw [this, one_pow, one_mul, e2]
    rfl
  obtain ⟨s3, o3, e3, d3, m3, _⟩ := flip_one_spec ex_tbl1 m2 hop (i := 0) (z := -1) (by show 0 < [v2].length; simp)
    (Or.inl rfl) (Or.inr ⟨rfl, by show (a1.base.getD 0 default).nonInt = true; rw [hb1, hv1]; rfl⟩) (exU_range 7).1 1 (J 3 0)
  have w3 : weight exCtx1.NI exCtx1.nf exCtx1.G0 exCtx1.tbl ([v2].modify 0 (flipTo · (-1))) = 1 := by
    rw [← weight_nil exCtx1]
    apply weight_congr_int
    rw [hv2]; rfl
  simp only [w2, w3] at d3
  rw [dec _ (exU_range 7).2] at d3
  rw [d3] at e3 m3
  have i2 : m.removalStep exCtx1 (J 3 0) exU 1 s2 6 = .ok (s3, some 1, 8) := by
    have hp : m.pickRemoval [v2] exU 6 = .ok (some 0, 1, 7) := by
      unfold Mgr.pickRemoval
      rw [hm, candidates_spec (by intro w hw; simp at hw; subst hw; rw [hv2, hv]; exact Nat.one_pos)]
      rw [hv2]
      simp [Mgr.create, exCtx1, exU, Res.get]
    unfold Mgr.removalStep
    rw [m2.cfg]
    show (m.pickRemoval [v2] exU 6 >>= _) = _
    rw [hp]
    simp only [Res.bind_ok]
    rw [Res.assert_true (by show ([v2].getD 0 default).nonInt = false; rw [hv2]; rfl)]
    simp only [Res.bind_ok, inv_one, one_mul]
    rw [e3]
    rfl
  have t1 : m.insRemTurn exCtx1 J exU 1 [0] [1] [true, false] ⟨s1, 0, 1, ⟨0, 0⟩, 5, []⟩ 0 =
      .ok ⟨s2, 1, 1, ⟨0, 1⟩, 6, [some 1]⟩ := by
    unfold Mgr.insRemTurn
    have : ¬ (s1.verts.filter fun v => !v.nonInt).length + 1 > m.maxOrder := by
      rw [m1.cfg, hc1, hv1, hm]; simp [Mgr.create]
    simp [Res.get, this, i1, AccStat.count]
  have t2 : m.insRemTurn exCtx1 J exU 1 [0] [1] [true, false] ⟨s2, 1, 1, ⟨0, 1⟩, 6, [some 1]⟩ 1 =
      .ok ⟨s3, 1, 1, ⟨0, 2⟩, 8, [some 1, some 1]⟩ := by
    unfold Mgr.insRemTurn
    simp [Res.get, i2, AccStat.count]
  obtain ⟨s4, e4, _⟩ := finish_spec ex_tbl1 ex_full1 m3 hop (J 1 0) (J 1 1) (J 1 2)
  have htry : ((List.range (2 * m.kIns)).map fun i => decide (exU (0 + i) < 1 / 2)) = [true, false] := by
    rw [hm]
    simp [Mgr.create, List.range_succ, exU]
    norm_num
  have hk : 2 * m.kIns = 2 := by rw [hm]; rfl
  rw [← hm]
  refine ⟨s0, ⟨s4, 1, 1, ⟨0, 2⟩, 8, [some 1, some 1]⟩, e0, ?_, rfl, rfl, rfl⟩
  unfold Mgr.doInsRem
  simp only [htry]
  rw [hk, hv0]
  have hcount : List.count true [true, false] = 1 := rfl
  rw [hcount]
  simp only [List.length_nil, Nat.zero_add]
  rw [hg]
  simp only [Res.bind_ok]
  rw [e1]
  simp only [Res.bind_ok]
  have hfold : Res.foldl (m.insRemTurn exCtx1 J exU 1 [0] [1] [true, false]) ⟨s1, 0, 1, ⟨0, 0⟩, 5, []⟩ (List.range 2) =
      .ok ⟨s3, 1, 1, ⟨0, 2⟩, 8, [some 1, some 1]⟩ := by
    rw [show List.range 2 = [0, 1] from rfl, Res.foldl_cons, t1]
    simp only [Res.bind_ok]
    rw [Res.foldl_cons, t2]
    rfl
  rw [hfold]
  simp only [Res.bind_ok]
  rw [Res.assert_true trivial]
  simp only [Res.bind_ok]
  rw [e4]
  rfl


end CTInt
